import Verif.Proofs.Yun
import Verif.Proofs.Lagrange
import Verif.Props.Structure

/-!
# Kronecker's method and trying all factors
-/

namespace Verif.Rings

open Polynomial

section Search
variable {α β : Type}

theorem searchFactor_spec (test : β → Option (Option (α × α))) (l : List β) (ht : ∀ b ∈ l, ∃ r, test b = some r) :
    ∃ r, searchFactor test l = some r ∧
      match r with
      | .irreducible => ∀ b ∈ l, test b = some none
      | .composite g h => ∃ b ∈ l, test b = some (some (g, h)) := by
  induction l with
  | nil => exact ⟨.irreducible, rfl, by simp⟩
  | cons b l ih =>
    obtain ⟨r, hr⟩ := ht b List.mem_cons_self
    cases r with
    | some gh => exact ⟨.composite gh.1 gh.2, by simp [searchFactor, hr], b, List.mem_cons_self, hr⟩
    | none =>
      obtain ⟨r, r1, r2⟩ := ih fun c hc => ht c (List.mem_cons_of_mem _ hc)
      refine ⟨r, by simpa [searchFactor, hr] using r1, ?_⟩
      cases r with
      | irreducible =>
        intro c hc
        rcases List.mem_cons.1 hc with rfl | hc
        · exact hr
        · exact r2 c hc
      | composite g h =>
        obtain ⟨c, hc, e⟩ := r2
        exact ⟨c, List.mem_cons_of_mem _ hc, e⟩

theorem mem_multiCartesianProduct (ls : List (List α)) (l : List α) :
    l ∈ Factored.multiCartesianProduct ls ↔ List.Forall₂ (· ∈ ·) l ls := by
  induction ls generalizing l with
  | nil => simp [Factored.multiCartesianProduct]
  | cons a ls ih =>
    simp only [Factored.multiCartesianProduct, List.mem_flatMap, List.mem_map]
    constructor
    · rintro ⟨x, hx, y, hy, rfl⟩
      exact .cons hx ((ih y).1 hy)
    · rintro (_ | ⟨hx, hy⟩)
      exact ⟨_, hx, _, (ih _).2 hy, rfl⟩

end Search

section
variable {α R : Type} [CommRing R] {S : DomainOps α} {v : α → R} (h : S.Models v)
include h

theorem tryFactor_spec (f g : List α) (hg : polyVal v g ≠ 0) :
    (¬ polyVal v g ∣ polyVal v f ∧ S.tryFactor f g = some none) ∨
    ∃ k, S.tryFactor f g = some (some (g, k)) ∧ polyVal v f = polyVal v g * polyVal v k := by
  rcases h.polyDiv_cases f g with ⟨h1, -⟩ | ⟨-, q, h2, h3⟩ | ⟨-, h2, h3⟩
  · exact absurd h1 hg
  · exact Or.inr ⟨q, by simp [DomainOps.tryFactor, h2, okOrNone], by rw [h3, mul_comm]⟩
  · exact Or.inl ⟨h2, by simp [DomainOps.tryFactor, h3, okOrNone]⟩

/-- The test of one tuple of values. -/
theorem kroneckerTest_spec (f : List α) (pts : List (α × α)) (hpos : 0 < pts.length)
    (hinj : ∀ i j, i < j → j < pts.length → xOf pts S v i ≠ xOf pts S v j)
    (hne : yOf pts S v 0 ≠ 0) :
    (S.kroneckerTest f pts = some none ∧ ¬ ∃ P : R[X], P ∣ polyVal v f ∧ 1 ≤ P.natDegree ∧ P.natDegree < pts.length ∧
        ∀ l, l < pts.length → P.eval (xOf pts S v l) = yOf pts S v l) ∨
    ∃ g k, S.kroneckerTest f pts = some (some (g, k)) ∧ polyVal v f = polyVal v g * polyVal v k ∧
      1 ≤ (polyVal v g).natDegree ∧ (polyVal v g).natDegree < pts.length := by
  haveI := h.domain
  rcases polyInterpolateLagrange_spec h pts hinj with ⟨g, g1, g2, g3⟩ | ⟨g1, g2⟩
  · have hg0 : polyVal v g ≠ 0 := by
      intro e
      have := g3 0 hpos
      rw [e, eval_zero] at this
      exact hne this.symm
    have huniq (P : R[X]) (h1 : P.natDegree < pts.length) (h2 : ∀ l, l < pts.length → P.eval (xOf pts S v l) = yOf pts S v l) :
        P = polyVal v g := by
      refine eq_of_agree h pts hinj _ _ ?_ g2 fun l hl => by rw [h2 l hl, g3 l hl]
      exact lt_of_le_of_lt degree_le_natDegree (by exact_mod_cast h1)
    have hgl : (polyVal v g).natDegree < pts.length := (natDegree_lt_iff_degree_lt hg0).2 g2
    rw [DomainOps.kroneckerTest, g1]
    simp only [Option.bind_some, DomainOps.kroneckerTestPoly, h.toSemi.polyDegree_some g hg0]
    by_cases hd : (polyVal v g).natDegree ≥ 1
    · rw [if_pos hd]
      rcases tryFactor_spec h f g hg0 with ⟨t1, t2⟩ | ⟨k, t1, t2⟩
      · refine Or.inl ⟨t2, ?_⟩
        rintro ⟨P, p1, p2, p3, p4⟩
        exact t1 (huniq P p3 p4 ▸ p1)
      · exact Or.inr ⟨g, k, t1, t2, hd, hgl⟩
    · rw [if_neg hd]
      refine Or.inl ⟨rfl, ?_⟩
      rintro ⟨P, p1, p2, p3, p4⟩
      exact hd (huniq P p3 p4 ▸ p2)
  · refine Or.inl ⟨by rw [DomainOps.kroneckerTest, g1]; rfl, ?_⟩
    rintro ⟨P, -, -, -, p4⟩
    exact g2 ⟨P, p4⟩

end

section
variable {α R : Type} [CommRing R] [UniqueFactorizationMonoid R] {S : UfdOps α} {v : α → R} (h : S.Models v)
include h

/-- A sampled point: the value of `f` there is not zero and has been factored. -/
def SampleOk (S : UfdOps α) (v : α → R) (f : List α) (p : α × Factored α) : Prop :=
  (polyVal v f).eval (v p.1) ≠ 0 ∧ p.2.Valid S.toFavOps v ∧ p.2.denote v = (polyVal v f).eval (v p.1)

theorem kroneckerSample_spec (f : List α) (x : α) :
    ((polyVal v f).eval (v x) = 0 ∧ S.kroneckerSample f x = some []) ∨
    ((polyVal v f).eval (v x) ≠ 0 ∧ ∃ yf, S.kroneckerSample f x = some [(x, yf)] ∧ SampleOk S v f (x, yf)) := by
  have he : v (S.polyEvaluate f x) = (polyVal v f).eval (v x) := h.toSemi.polyEvaluate f x
  rw [UfdOps.kroneckerSample]
  by_cases h0 : (polyVal v f).eval (v x) = 0
  · rw [if_pos ((h.toSemi.isZero _).2 (by rw [he, h0]))]
    exact Or.inl ⟨h0, rfl⟩
  · rw [if_neg (fun e => h0 (by rw [← he]; exact (h.toSemi.isZero _).1 e))]
    obtain ⟨yf, y1, y2, y3⟩ := h.factorUnwrap (S.polyEvaluate f x) (by rwa [he])
    refine Or.inr ⟨h0, yf, by rw [y1]; rfl, h0, y2, by rw [y3, he]⟩

theorem kroneckerPoints_spec [CharZero R] (f : List α) (hf : polyVal v f ≠ 0) (want : Nat) :
    ∃ pts, S.kroneckerPoints f want 0 [] = some pts ∧ want ≤ pts.length ∧ (∀ p ∈ pts, SampleOk S v f p) ∧
      (pts.map fun p => v p.1).Nodup := by
  classical
  haveI := h.domain
  have hginj : Function.Injective fun n => v (S.generated n) := fun i j e => (C48_generate_distinct h.toRing).1 i j e
  obtain ⟨N, hN⟩ : ∃ N, ∀ n, N ≤ n → (polyVal v f).eval (v (S.generated n)) ≠ 0 := by
    have hfin : {n | (polyVal v f).eval (v (S.generated n)) = 0}.Finite := by
      refine Set.Finite.of_finite_image (f := fun n => v (S.generated n)) ?_ hginj.injOn
      refine ((polyVal v f).roots.toFinset.finite_toSet).subset ?_
      rintro _ ⟨n, hn, rfl⟩
      simpa [hf] using hn
    obtain ⟨N, hN⟩ := hfin.bddAbove
    exact ⟨N + 1, fun n hn e => by have := hN (show n ∈ _ from e); omega⟩
  have key : ∀ m n acc, (N - n) + (want - acc.length) = m → (∀ p ∈ acc, SampleOk S v f p ∧ ∃ k < n, p.1 = S.generated k) →
      (acc.map fun p => v p.1).Nodup → ∃ pts, S.kroneckerPoints f want n acc = some pts ∧ want ≤ pts.length ∧
        (∀ p ∈ pts, SampleOk S v f p) ∧ (pts.map fun p => v p.1).Nodup := by
    intro m
    induction m using Nat.strong_induction_on with
    | _ m ih =>
      intro n acc hm hacc hnd
      rw [UfdOps.kroneckerPoints]
      by_cases hl : acc.length < want
      · rw [if_pos hl]
        have mono : ∀ p ∈ acc, SampleOk S v f p ∧ ∃ k < n + 1, p.1 = S.generated k := fun p hp => by
          obtain ⟨h1, k, hk, e⟩ := hacc p hp
          exact ⟨h1, k, by omega, e⟩
        rcases kroneckerSample_spec h f (S.generated n) with ⟨h1, h2⟩ | ⟨h1, yf, h2, h3⟩
        · have hn : n < N := by
            by_contra hc
            exact hN n (by omega) h1
          simp only [h2, Option.bind_eq_bind, Option.bind_some, List.append_nil]
          exact ih ((N - (n + 1)) + (want - acc.length)) (by omega) (n + 1) acc rfl mono hnd
        · simp only [h2, Option.bind_eq_bind, Option.bind_some]
          refine ih _ (by simp; omega) (n + 1) (acc ++ [(S.generated n, yf)]) rfl ?_ ?_
          · intro p hp
            rcases List.mem_append.1 hp with hp | hp
            · exact mono p hp
            · rw [List.mem_singleton] at hp
              subst hp
              exact ⟨h3, n, Nat.lt_succ_self n, rfl⟩
          · rw [List.map_append, List.nodup_append]
            refine ⟨hnd, by simp, ?_⟩
            intro a ha b hb
            obtain ⟨p, hp, rfl⟩ := List.mem_map.1 ha
            simp only [List.map_cons, List.map_nil, List.mem_singleton] at hb
            obtain ⟨-, k, hk, e⟩ := hacc p hp
            rw [hb, e]
            intro e2
            have := hginj e2
            omega
      · rw [if_neg hl]
        exact ⟨acc, rfl, by omega, fun p hp => (hacc p hp).1, hnd⟩
  exact key _ 0 [] rfl (by simp) (by simp)

omit h in
theorem kroneckerSelect_spec (pts : List (α × Factored α)) (k : Nat) (hk : k ≤ pts.length) :
    (kroneckerSelect pts k).length = k ∧ (∀ p ∈ kroneckerSelect pts k, p ∈ pts) ∧
      ((pts.map fun p => v p.1).Nodup → ((kroneckerSelect pts k).map fun p => v p.1).Nodup) := by
  have hp := List.mergeSort_perm pts fun a b : α × Factored α => decide (a.2.countDivisors ≤ b.2.countDivisors)
  refine ⟨by simp [kroneckerSelect, hk], fun p hp' => ?_, fun hnd => ?_⟩
  · exact hp.mem_iff.1 (List.mem_of_mem_take (List.mem_reverse.1 hp'))
  · rw [kroneckerSelect, List.map_reverse, List.nodup_reverse, List.map_take]
    exact (List.take_sublist _ _).nodup ((hp.map _).nodup_iff.2 hnd)

/-- The listed values are nonzero divisors; the first list has every divisor up to units, the others every divisor. -/
theorem kroneckerValues_spec (units : List α) (hu : ∀ u, IsUnit u → ∃ x ∈ units, v x = u) (hu' : ∀ x ∈ units, IsUnit (v x))
    (f : List α) (p : α × Factored α) (hp : SampleOk S v f p) (i : Nat) :
    (∀ y ∈ S.kroneckerValues units i p.2, v y ≠ 0) ∧
    (∀ r, r ∣ (polyVal v f).eval (v p.1) → ∃ u, IsUnit u ∧ (i ≠ 0 → u = 1) ∧ ∃ y ∈ S.kroneckerValues units i p.2, v y = u * r) := by
  haveI := h.domain
  obtain ⟨h1, h2, h3⟩ := hp
  have hv := Factored.divisors_vals h.toSemi p.2
  have hden : (p.2.factors.map fun q => v q.1 ^ q.2).prod ∣ (polyVal v f).eval (v p.1) := by
    rw [← h3]; exact dvd_mul_left _ _
  have hd0 : ∀ d ∈ p.2.divisors S.toFavOps, v d ≠ 0 := by
    intro d hd e
    have := Factored.divVals_dvd p.2.factors (v d) (by rw [← hv]; exact List.mem_map.2 ⟨d, hd, rfl⟩)
    rw [e] at this
    exact h1 (zero_dvd_iff.1 (this.trans hden))
  constructor
  · intro y hy
    obtain ⟨d, hd, hy⟩ := List.mem_flatMap.1 hy
    split at hy
    · rw [List.mem_singleton] at hy; rw [hy]; exact hd0 d hd
    · obtain ⟨u, hu2, rfl⟩ := List.mem_map.1 hy
      rw [h.mul]; exact mul_ne_zero (hu' u hu2).ne_zero (hd0 d hd)
  · intro r hr
    have hr' : r ∣ (p.2.factors.map fun q => v q.1 ^ q.2).prod := by
      rw [← h3, Factored.denote] at hr
      exact h2.unit.dvd_mul_left.1 hr
    obtain ⟨d, d1, d2⟩ := Factored.divVals_complete p.2.factors
      (fun q hq => UniqueFactorizationMonoid.irreducible_iff_prime.1 (h2.irreducible q hq)) r hr'
    rw [← hv] at d1
    obtain ⟨y, hy, rfl⟩ := List.mem_map.1 d1
    by_cases hi : i = 0
    · obtain ⟨u, e⟩ := d2
      exact ⟨u, u.isUnit, fun hc => absurd hi hc, y, List.mem_flatMap.2 ⟨y, hy, by simp [hi]⟩, by rw [← e, mul_comm]⟩
    · obtain ⟨u, e⟩ := d2.symm
      obtain ⟨x, x1, x2⟩ := hu u u.isUnit
      refine ⟨1, isUnit_one, fun _ => rfl, S.mul x y, List.mem_flatMap.2 ⟨y, hy, ?_⟩, ?_⟩
      · rw [if_neg hi]; exact List.mem_map.2 ⟨x, x1, rfl⟩
      · rw [h.mul, x2, one_mul, mul_comm]; exact e

/-- Kronecker's search decides whether a primitive polynomial is irreducible and finds a proper factor when it is not. -/
theorem kroneckerFindFactor_spec [CharZero R] (units : List α) (hu : ∀ u, IsUnit u → ∃ x ∈ units, v x = u)
    (hu' : ∀ x ∈ units, IsUnit (v x)) (f : List α) (hf : (polyVal v f).IsPrimitive) (hn : ¬ IsUnit (polyVal v f)) :
    ∃ r, S.kroneckerFindFactor units f = some r ∧
      match r with
      | .irreducible => Irreducible (polyVal v f)
      | .composite g k => polyVal v f = polyVal v g * polyVal v k ∧ ¬ IsUnit (polyVal v g) ∧ ¬ IsUnit (polyVal v k) := by
  haveI := h.domain
  have hf0 := hf.ne_zero
  have hdeg : (polyVal v f).natDegree ≠ 0 := fun e => hn (isUnit_of_prim_natDegree hf e)
  have nu (g : R[X]) (hg : 1 ≤ g.natDegree) : ¬ IsUnit g := fun e => by
    have := natDegree_eq_zero_of_isUnit e
    omega
  rw [UfdOps.kroneckerFindFactor, h.toSemi.polyDegree_some f hf0]
  simp only [Option.bind_eq_bind, Option.bind_some]
  by_cases h1 : (polyVal v f).natDegree = 1
  · rw [if_pos h1]
    refine ⟨.irreducible, rfl, hn, fun a b hab => ?_⟩
    have ha : a.IsPrimitive := isPrim_of_dvd hf (hab ▸ dvd_mul_right _ _)
    have hb : b.IsPrimitive := isPrim_of_dvd hf (hab ▸ dvd_mul_left _ _)
    rw [hab, natDegree_mul ha.ne_zero hb.ne_zero] at h1
    rcases Nat.eq_zero_or_pos a.natDegree with e | e
    · exact Or.inl (isUnit_of_prim_natDegree ha e)
    · exact Or.inr (isUnit_of_prim_natDegree hb (by omega))
  · rw [if_neg h1, UfdOps.kroneckerGeneral]
    generalize hm : (polyVal v f).natDegree / 2 = m
    obtain ⟨pts, p1, p2, p3, p4⟩ := kroneckerPoints_spec h f hf0 (3 * (m + 1))
    obtain ⟨s1, s2, s3⟩ := kroneckerSelect_spec (v := v) pts (m + 1) (by omega)
    have s3 := s3 p4
    simp only [p1, Option.bind_eq_bind, Option.bind_some]
    generalize kroneckerSelect pts (m + 1) = sel at s1 s2 s3 ⊢
    have hsel : ∀ p ∈ sel, SampleOk S v f p := fun p hp => p3 p (s2 p hp)
    -- what a tuple of the product looks like
    have tup (t : List (α × α)) : t ∈ Factored.multiCartesianProduct (S.kroneckerCandidates units sel) ↔
        t.length = sel.length ∧ ∀ i (hi : i < sel.length), ∃ y ∈ S.kroneckerValues units i sel[i].2, t[i]? = some (sel[i].1, y) := by
      rw [mem_multiCartesianProduct, List.forall₂_iff_get]
      simp only [UfdOps.kroneckerCandidates, List.length_mapIdx, List.get_eq_getElem, List.getElem_mapIdx, List.mem_map]
      constructor
      · rintro ⟨h1, h2⟩
        refine ⟨h1, fun i hi => ?_⟩
        obtain ⟨y, hy, e⟩ := h2 i (by omega) hi
        exact ⟨y, hy, by rw [List.getElem?_eq_getElem (by omega), ← e]⟩
      · rintro ⟨h1, h2⟩
        refine ⟨h1, fun i hi hi' => ?_⟩
        obtain ⟨y, hy, e⟩ := h2 i hi'
        rw [List.getElem?_eq_getElem hi, Option.some.injEq] at e
        exact ⟨y, hy, e.symm⟩
    have hx (t : List (α × α)) (ht : t ∈ Factored.multiCartesianProduct (S.kroneckerCandidates units sel)) (i : Nat)
        (hi : i < sel.length) : xOf t S.toDomainOps v i = v sel[i].1 := by
      obtain ⟨y, -, e⟩ := ((tup t).1 ht).2 i hi
      rw [xOf, List.getD_eq_getElem?_getD, e]; rfl
    have hinj (t : List (α × α)) (ht : t ∈ Factored.multiCartesianProduct (S.kroneckerCandidates units sel)) :
        ∀ i j, i < j → j < t.length → xOf t S.toDomainOps v i ≠ xOf t S.toDomainOps v j := by
      intro i j hij hj
      have hl := ((tup t).1 ht).1
      rw [hx t ht i (by omega), hx t ht j (by omega)]
      intro e
      have := (List.nodup_iff_injective_get.1 s3) (a₁ := ⟨i, by simp; omega⟩) (a₂ := ⟨j, by simp; omega⟩) (by simpa using e)
      simp only [Fin.mk.injEq] at this
      omega
    have hy0 (t : List (α × α)) (ht : t ∈ Factored.multiCartesianProduct (S.kroneckerCandidates units sel)) :
        yOf t S.toDomainOps v 0 ≠ 0 := by
      obtain ⟨y, hy, e⟩ := ((tup t).1 ht).2 0 (by omega)
      rw [yOf, List.getD_eq_getElem?_getD, e]
      exact (kroneckerValues_spec h units hu hu' f _ (hsel _ (List.getElem_mem _)) 0).1 y hy
    have test (t : List (α × α)) (ht : t ∈ Factored.multiCartesianProduct (S.kroneckerCandidates units sel)) :=
      kroneckerTest_spec h.toDomain f t (by rw [((tup t).1 ht).1]; omega) (hinj t ht) (hy0 t ht)
    obtain ⟨r, r1, r2⟩ := searchFactor_spec (S.kroneckerTest f) _ (fun t ht => by
      rcases test t ht with ⟨e, -⟩ | ⟨g, k, e, -⟩
      · exact ⟨_, e⟩
      · exact ⟨_, e⟩)
    refine ⟨r, r1, ?_⟩
    cases r with
    | composite g k =>
      obtain ⟨t, ht, e⟩ := r2
      rcases test t ht with ⟨e', -⟩ | ⟨g', k', e', d1, d2, d3⟩
      · rw [e] at e'; simp at e'
      · rw [e] at e'
        simp only [Option.some.injEq, Prod.mk.injEq] at e'
        obtain ⟨rfl, rfl⟩ := e'
        refine ⟨d1, nu _ d2, nu _ ?_⟩
        have hl := ((tup t).1 ht).1
        have hg0 : polyVal v g ≠ 0 := fun e0 => hf0 (by rw [d1, e0, zero_mul])
        have hk0 : polyVal v k ≠ 0 := fun e0 => hf0 (by rw [d1, e0, mul_zero])
        have := natDegree_mul hg0 hk0
        rw [← d1] at this
        omega
    | irreducible =>
      by_contra hirr
      -- a factor of degree at most `m`
      obtain ⟨P, hP1, hP2, hP3⟩ : ∃ P : R[X], P ∣ polyVal v f ∧ 1 ≤ P.natDegree ∧ P.natDegree ≤ m := by
        have : ∃ a b, polyVal v f = a * b ∧ ¬ IsUnit a ∧ ¬ IsUnit b := by
          by_contra hc
          push Not at hc
          exact hirr ⟨hn, fun a b hab => by
            by_cases ha : IsUnit a
            · exact Or.inl ha
            · exact Or.inr (hc a b hab ha)⟩
        obtain ⟨a, b, hab, ha, hb⟩ := this
        have hap : a.IsPrimitive := isPrim_of_dvd hf (hab ▸ dvd_mul_right _ _)
        have hbp : b.IsPrimitive := isPrim_of_dvd hf (hab ▸ dvd_mul_left _ _)
        have h2 := natDegree_mul hap.ne_zero hbp.ne_zero
        rw [← hab] at h2
        have ha1 : a.natDegree ≠ 0 := fun e => ha (isUnit_of_prim_natDegree hap e)
        have hb1 : b.natDegree ≠ 0 := fun e => hb (isUnit_of_prim_natDegree hbp e)
        rcases Nat.lt_or_ge m a.natDegree with hlt | hge
        · exact ⟨b, hab ▸ dvd_mul_left _ _, by omega, by omega⟩
        · exact ⟨a, hab ▸ dvd_mul_right _ _, by omega, by omega⟩
      have hdv (Q : R[X]) (hQ : Q ∣ polyVal v f) (x : R) : Q.eval x ∣ (polyVal v f).eval x := eval_dvd hQ
      -- normalise the value at the first point
      obtain ⟨u, u1, -, -⟩ := (kroneckerValues_spec h units hu hu' f _ (hsel sel[0] (List.getElem_mem _)) 0).2 _
        (hdv P hP1 (v (sel[0]'(by omega)).1))
      obtain ⟨u, u1, -, y0, hy0', e0⟩ := (kroneckerValues_spec h units hu hu' f _ (hsel sel[0] (List.getElem_mem _)) 0).2 _
        (hdv P hP1 (v (sel[0]'(by omega)).1))
      have hQ : C u * P ∣ polyVal v f := ((u1.map C).mul_left_dvd).2 hP1
      have hvals : ∀ i (hi : i < sel.length), ∃ y ∈ S.kroneckerValues units i sel[i].2, v y = (C u * P).eval (v sel[i].1) := by
        intro i hi
        by_cases hi0 : i = 0
        · subst hi0
          exact ⟨y0, hy0', by rw [e0, eval_mul, eval_C]⟩
        · obtain ⟨u', -, u2, y, hy, e⟩ := (kroneckerValues_spec h units hu hu' f _ (hsel sel[i] (List.getElem_mem _)) i).2 _
            (hdv _ hQ (v sel[i].1))
          exact ⟨y, hy, by rw [e, u2 hi0, one_mul]⟩
      choose Y hY1 hY2 using hvals
      have htm : (List.ofFn fun i : Fin sel.length => (sel[i].1, Y i i.2)) ∈
          Factored.multiCartesianProduct (S.kroneckerCandidates units sel) := by
        rw [tup]
        refine ⟨by simp, fun i hi => ⟨Y i hi, hY1 i hi, ?_⟩⟩
        rw [List.getElem?_ofFn]; simp [hi]
      rcases test _ htm with ⟨-, hno⟩ | ⟨g, k, e', -⟩
      · apply hno
        have hu0 : u ≠ 0 := u1.ne_zero
        refine ⟨C u * P, hQ, by rw [natDegree_C_mul hu0]; exact hP2, by rw [natDegree_C_mul hu0]; simp; omega, ?_⟩
        intro l hl
        have hl' : l < sel.length := by simpa using hl
        rw [hx _ htm l hl', ← hY2 l hl', yOf, List.getD_eq_getElem?_getD, List.getElem?_ofFn]
        simp [hl']
      · have := r2 _ htm
        rw [this] at e'
        simp at e'

/-- Kronecker's method factors primitive polynomials. -/
theorem kronecker_factors [CharZero R] (units : List α) (hu : ∀ u, IsUnit u → ∃ x ∈ units, v x = u)
    (hu' : ∀ x ∈ units, IsUnit (v x)) (f : List α) (hf : (polyVal v f).IsPrimitive) :
    ∃ fa, factorizeByFindFactor S.toFavOps.poly (S.kroneckerFindFactor units) f = some fa ∧
      fa.Valid S.toFavOps.poly (polyVal v) ∧ fa.denote (polyVal v) = polyVal v f := by
  haveI := h.domain
  refine factorizeByFindFactor_specOn h.toFav.poly (fun p => p.IsPrimitive)
    (fun a b hab => ⟨isPrim_of_dvd hab (dvd_mul_right _ _), isPrim_of_dvd hab (dvd_mul_left _ _)⟩) _ ?_ f hf.ne_zero hf
  intro e _ hp hn
  obtain ⟨r, r1, r2⟩ := kroneckerFindFactor_spec h units hu hu' e hp hn
  refine ⟨r, r1, ?_⟩
  cases r <;> exact r2

end

end Verif.Rings
