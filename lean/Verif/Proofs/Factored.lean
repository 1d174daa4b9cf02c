import Verif.Proofs.Numbers
import Verif.Props.Natural
import Mathlib.Algebra.BigOperators.Group.List.Lemmas
import Mathlib.RingTheory.Multiplicity
import Mathlib.Data.List.GetD
import Mathlib.RingTheory.UniqueFactorizationDomain.Nat
import Mathlib.RingTheory.Int.Basic

namespace Verif.Rings
namespace Factored

section Expand
variable {α R : Type} [CommRing R] {S : FavOps α} {v : α → R} (h : S.toSemiRingOps.Models v)
include h

theorem foldl_expand (l : List (α × Nat)) (c : α) :
    v (l.foldl (fun ans p => S.mul ans (S.natPow p.1 p.2)) c) = v c * (l.map fun p => v p.1 ^ p.2).prod := by
  induction l generalizing c with
  | nil => simp
  | cons x t ih => simp [ih, h.mul, h.natPow, mul_assoc]

theorem expand_eq (f : Factored α) : v (f.expand S) = f.denote v := foldl_expand h _ _

end Expand

section Mul
variable {α R : Type} [CommRing R] {S : FavOps α} {v : α → R} (h : S.Models v)
include h

theorem compareFactor_eq (p q : α) (hpq : v p = v q) (h0 : v p ≠ 0) :
    ∃ w, compareFactor S p q = some (some w) ∧ v w = 1 := by
  haveI := h.domain
  have hq0 : v q ≠ 0 := by rwa [← hpq]
  obtain ⟨u, u1, u2⟩ := h.div_ok p q hq0 (by rw [hpq])
  obtain ⟨w, w1, w2⟩ := h.div_ok q p h0 (by rw [hpq])
  have hu : v u = 1 := by
    apply mul_right_cancel₀ hq0; rw [one_mul, ← u2, hpq]
  have hw : v w = 1 := by
    apply mul_right_cancel₀ h0; rw [one_mul, ← w2, hpq]
  have hu' : S.isUnit u = some true := by rw [h.toDomain.isUnit]; simp [hu]
  have hw' : S.isUnit w = some true := by rw [h.toDomain.isUnit]; simp [hw]
  exact ⟨w, by simp [compareFactor, u1, w1, assocUnits, hu', hw'], hw⟩

theorem compareFactor_ne (p q : α) (hp : S.IsFav v (v p)) (hq : S.IsFav v (v q)) (hpq : v p ≠ v q ∨ v p = 0) :
    compareFactor S p q = some none := by
  haveI := h.domain
  rcases h.div_cases p q with ⟨h1, h2⟩ | ⟨h1, u, h2, h3⟩ | ⟨h1, h2, h3⟩
  · rcases h.div_cases q p with ⟨g1, g2⟩ | ⟨g1, u', g2, g3⟩ | ⟨g1, g2, g3⟩
    · simp [compareFactor, h2, g2, assocUnits]
    · simp [compareFactor, h2, g2, assocUnits]
    · simp [compareFactor, h2, g3, assocUnits]
  · rcases h.div_cases q p with ⟨g1, g2⟩ | ⟨g1, u', g2, g3⟩ | ⟨g1, g2, g3⟩
    · simp [compareFactor, h2, g2, assocUnits]
    · exfalso
      have : Associated (v p) (v q) :=
        associated_of_dvd_dvd ⟨v u', by rw [g3, mul_comm]⟩ ⟨v u, by rw [h3, mul_comm]⟩
      rcases hpq with hpq | hpq
      · exact hpq (h.isFav_eq hp hq this)
      · exact g1 hpq
    · simp [compareFactor, h2, g3, assocUnits]
  · rcases h.div_cases q p with ⟨g1, g2⟩ | ⟨g1, u', g2, g3⟩ | ⟨g1, g2, g3⟩
    · simp [compareFactor, h3, g2, assocUnits]
    · simp [compareFactor, h3, g2, assocUnits]
    · simp [compareFactor, h3, g3, assocUnits]

theorem mulByLoop_spec (p : α) (k : Nat) (unit : α) (hp : S.IsFav v (v p)) (l : List (α × Nat))
    (hl : ∀ q ∈ l, S.IsFav v (v q.1)) :
    ∃ u l', mulByLoop S p k unit l = some (u, l') ∧ v u = v unit ∧
      (l'.map fun q => v q.1 ^ q.2).prod = (l.map fun q => v q.1 ^ q.2).prod * v p ^ k ∧
      (∀ x ∈ l', (∃ y ∈ l, v x.1 = v y.1 ∧ y.2 ≤ x.2) ∨ (v x.1 = v p ∧ k = x.2)) ∧
      ((v p ≠ 0 ∧ v p ∈ l.map (fun q => v q.1)) ∧ l'.map (fun q => v q.1) = l.map (fun q => v q.1) ∨
        (v p ≠ 0 → v p ∉ l.map (fun q => v q.1)) ∧ l'.map (fun q => v q.1) = l.map (fun q => v q.1) ++ [v p]) := by
  induction l with
  | nil => exact ⟨unit, [(p, k)], rfl, rfl, by simp, by simp, Or.inr ⟨by simp, by simp⟩⟩
  | cons q t ih =>
    by_cases hpq : v p = v q.1 ∧ v p ≠ 0
    · obtain ⟨w, w1, w2⟩ := compareFactor_eq h p q.1 hpq.1 hpq.2
      refine ⟨S.mul unit (S.natPow w k), (q.1, q.2 + k) :: t, by simp [mulByLoop, w1], ?_, ?_, ?_, Or.inl ⟨⟨hpq.2, ?_⟩, ?_⟩⟩
      · rw [h.mul, h.toSemi.natPow, w2, one_pow, mul_one]
      · simp only [List.map_cons, List.prod_cons, hpq.1, pow_add]; ring
      · intro x hx
        rcases List.mem_cons.1 hx with rfl | hx
        · exact Or.inl ⟨q, List.mem_cons_self, rfl, by simp⟩
        · exact Or.inl ⟨x, List.mem_cons_of_mem _ hx, rfl, le_rfl⟩
      · simp [hpq.1]
      · simp
    · have hne : v p ≠ v q.1 ∨ v p = 0 := by tauto
      have hc := compareFactor_ne h p q.1 hp (hl q List.mem_cons_self) hne
      obtain ⟨u, l', h1, h2, h3, h4, h5⟩ := ih fun x hx => hl x (List.mem_cons_of_mem _ hx)
      refine ⟨u, q :: l', by simp [mulByLoop, hc, h1], h2, ?_, ?_, ?_⟩
      · simp only [List.map_cons, List.prod_cons, h3]; ring
      · intro x hx
        rcases List.mem_cons.1 hx with rfl | hx
        · exact Or.inl ⟨x, List.mem_cons_self, rfl, le_rfl⟩
        · rcases h4 x hx with ⟨y, y1, y2⟩ | hh
          · exact Or.inl ⟨y, List.mem_cons_of_mem _ y1, y2⟩
          · exact Or.inr hh
      · rcases h5 with ⟨⟨a, b⟩, c⟩ | ⟨a, c⟩
        · exact Or.inl ⟨⟨a, by simp only [List.map_cons, List.mem_cons]; exact Or.inr b⟩, by simp [c]⟩
        · refine Or.inr ⟨?_, by simp [c]⟩
          intro h0
          simp only [List.map_cons, List.mem_cons, not_or]
          exact ⟨fun e => hpq ⟨e, h0⟩, a h0⟩

theorem mulByUnchecked_spec (f : Factored α) (p : α) (k : Nat) (hp : S.IsFav v (v p))
    (hf : ∀ q ∈ f.factors, S.IsFav v (v q.1)) :
    ∃ f', mulByUnchecked S f p k = some f' ∧ f'.denote v = f.denote v * v p ^ k ∧
      (∀ q ∈ f'.factors, S.IsFav v (v q.1)) ∧
      (f.Valid S v → Irreducible (v p) → 0 < k → f'.Valid S v) := by
  obtain ⟨u, l', h1, h2, h3, h4, h5⟩ := mulByLoop_spec h p k f.unit hp f.factors hf
  have hfav : ∀ q ∈ l', S.IsFav v (v q.1) := by
    intro q hq
    rcases h4 q hq with ⟨y, y1, y2, -⟩ | ⟨y, -⟩
    · rw [y2]; exact hf y y1
    · rw [y]; exact hp
  refine ⟨⟨u, l'⟩, by simp [mulByUnchecked, h1], ?_, hfav, ?_⟩
  · simp only [denote, h2, h3]; ring
  · intro hv hirr hk
    refine ⟨by rw [h2]; exact hv.unit, ?_, hfav, ?_, ?_⟩
    · intro q hq
      rcases h4 q hq with ⟨y, y1, y2, -⟩ | ⟨y, -⟩
      · rw [y2]; exact hv.irreducible y y1
      · rw [y]; exact hirr
    · intro q hq
      rcases h4 q hq with ⟨y, y1, -, y2⟩ | ⟨-, y⟩
      · exact lt_of_lt_of_le (hv.pos y y1) y2
      · rw [← y]; exact hk
    · rcases h5 with ⟨-, c⟩ | ⟨a, c⟩
      · change (l'.map fun q => v q.1).Nodup
        rw [c]; exact hv.distinct
      · change (l'.map fun q => v q.1).Nodup
        rw [c, List.nodup_append]
        refine ⟨hv.distinct, by simp, ?_⟩
        intro x hx y hy e
        simp only [List.mem_singleton] at hy
        subst hy e
        exact a hirr.ne_zero hx

theorem mul_fold (l : List (α × Nat)) (f : Factored α) (hl : ∀ q ∈ l, S.IsFav v (v q.1))
    (hf : ∀ q ∈ f.factors, S.IsFav v (v q.1)) :
    ∃ f', l.foldlM (fun f p => mulByUnchecked S f p.1 p.2) f = some f' ∧
      f'.denote v = f.denote v * (l.map fun q => v q.1 ^ q.2).prod ∧
      (f.Valid S v → (∀ q ∈ l, Irreducible (v q.1) ∧ 0 < q.2) → f'.Valid S v) := by
  induction l generalizing f with
  | nil => exact ⟨f, rfl, by simp, fun hv _ => hv⟩
  | cons q t ih =>
    obtain ⟨f1, a1, a2, a3, a4⟩ := mulByUnchecked_spec h f q.1 q.2 (hl q List.mem_cons_self) hf
    obtain ⟨f2, b1, b2, b3⟩ := ih f1 (fun x hx => hl x (List.mem_cons_of_mem _ hx)) a3
    refine ⟨f2, by simp [List.foldlM_cons, a1, b1], by rw [b2, a2]; simp; ring, ?_⟩
    intro hv hq
    exact b3 (a4 hv (hq q List.mem_cons_self).1 (hq q List.mem_cons_self).2)
      fun x hx => hq x (List.mem_cons_of_mem _ hx)

theorem mul_spec (a b : Factored α) (ha : ∀ q ∈ a.factors, S.IsFav v (v q.1)) (hb : ∀ q ∈ b.factors, S.IsFav v (v q.1)) :
    ∃ c, mul S a b = some c ∧ c.denote v = a.denote v * b.denote v ∧ (a.Valid S v → b.Valid S v → c.Valid S v) := by
  obtain ⟨c, c1, c2, c3⟩ := mul_fold h b.factors ⟨S.mul a.unit b.unit, a.factors⟩ hb ha
  refine ⟨c, c1, ?_, ?_⟩
  · rw [c2]; simp only [denote, h.mul]; ring
  · intro va vb
    refine c3 ⟨?_, va.irreducible, va.fav, va.pos, va.distinct⟩ fun q hq => ⟨vb.irreducible q hq, vb.pos q hq⟩
    change IsUnit (v (S.mul a.unit b.unit))
    rw [h.mul]; exact va.unit.mul vb.unit

theorem factoredIrreducible_spec (e : α) (he : Irreducible (v e)) :
    ∃ f, factoredIrreducible S e = some f ∧ f.Valid S v ∧ f.denote v = v e := by
  obtain ⟨u, w, h1, h2, h3⟩ := h.fav e
  obtain ⟨w', w1, w2, w3⟩ := h.favAssoc e
  simp only [FavOps.favAssoc, h1, Option.map_some, Option.some.injEq] at w1
  subst w1
  refine ⟨⟨u, [(w, 1)]⟩, by simp [factoredIrreducible, h1], ⟨h2, ?_, ?_, ?_, ?_⟩, by simp [denote, h3]⟩
  · simpa using (w2.irreducible_iff).1 he
  · simpa using w3
  · simp
  · simp

end Mul

section Unique
variable {α R : Type} [CommRing R] [IsDomain R] [UniqueFactorizationMonoid R] {S : FavOps α} {v : α → R} (h : S.Models v)
include h

/-- the primes dividing a list of prime powers -/
theorem prime_dvd_prod (l : List (R × Nat)) (p : R) (hp : Prime p) (hd : p ∣ (l.map fun q => q.1 ^ q.2).prod) :
    ∃ q ∈ l, p ∣ q.1 := by
  obtain ⟨a, ha, hpa⟩ := (hp.dvd_prod_iff).1 hd
  obtain ⟨q, hq, rfl⟩ := List.mem_map.1 ha
  exact ⟨q, hq, hp.dvd_of_dvd_pow hpa⟩

theorem mem_of_irreducible_dvd (f : Factored α) (hf : f.Valid S v) (p : R) (hp : Irreducible p) (hfav : S.IsFav v p)
    (hd : p ∣ f.denote v) : ∃ q ∈ f.factors, v q.1 = p := by
  have hprime : Prime p := UniqueFactorizationMonoid.irreducible_iff_prime.1 hp
  rcases hprime.dvd_or_dvd hd with hd | hd
  · exact absurd (isUnit_of_dvd_unit hd hf.unit) hp.not_isUnit
  · obtain ⟨a, ha, hpa⟩ := (hprime.dvd_prod_iff).1 hd
    obtain ⟨q, hq, rfl⟩ := List.mem_map.1 ha
    have h1 := hprime.dvd_of_dvd_pow hpa
    refine ⟨q, hq, (h.isFav_eq hfav (hf.fav q hq) ?_).symm⟩
    exact hp.associated_of_dvd (hf.irreducible q hq) h1

omit h [UniqueFactorizationMonoid R] in
/-- splitting off one factor -/
theorem prod_split (l : List (α × Nat)) (hnd : (l.map fun q => v q.1).Nodup) (p : α × Nat) (hp : p ∈ l) :
    ∃ l' : List (α × Nat), (∀ q ∈ l', q ∈ l ∧ v q.1 ≠ v p.1) ∧
      (l.map fun q => v q.1 ^ q.2).prod = v p.1 ^ p.2 * (l'.map fun q => v q.1 ^ q.2).prod := by
  induction l with
  | nil => simp at hp
  | cons x t ih =>
    simp only [List.map_cons, List.nodup_cons] at hnd
    rcases List.mem_cons.1 hp with rfl | hpt
    · refine ⟨t, fun q hq => ⟨List.mem_cons_of_mem _ hq, fun e => hnd.1 (e ▸ List.mem_map.2 ⟨q, hq, rfl⟩)⟩, by simp⟩
    · obtain ⟨l', h1, h2⟩ := ih hnd.2 hpt
      refine ⟨x :: l', ?_, by simp [h2]; ring⟩
      intro q hq
      rcases List.mem_cons.1 hq with rfl | hq
      · exact ⟨List.mem_cons_self, fun e => hnd.1 (e ▸ List.mem_map.2 ⟨p, hpt, rfl⟩)⟩
      · exact ⟨List.mem_cons_of_mem _ (h1 q hq).1, (h1 q hq).2⟩

/-- the exponent of a listed prime is its multiplicity -/
theorem emultiplicity_eq (f : Factored α) (hf : f.Valid S v) (p : α × Nat) (hp : p ∈ f.factors) :
    emultiplicity (v p.1) (f.denote v) = p.2 := by
  have hprime : Prime (v p.1) := UniqueFactorizationMonoid.irreducible_iff_prime.1 (hf.irreducible p hp)
  obtain ⟨l', h1, h2⟩ := prod_split f.factors hf.distinct p hp
  have e : f.denote v = v p.1 ^ p.2 * (v f.unit * (l'.map fun q => v q.1 ^ q.2).prod) := by
    rw [denote, h2]; ring
  rw [e, emultiplicity_mul hprime, emultiplicity_pow_self hprime.ne_zero hprime.not_unit]
  have : emultiplicity (v p.1) (v f.unit * (l'.map fun q => v q.1 ^ q.2).prod) = 0 := by
    rw [emultiplicity_eq_zero]
    intro hd
    rcases hprime.dvd_or_dvd hd with hd | hd
    · exact hprime.not_unit (isUnit_of_dvd_unit hd hf.unit)
    · obtain ⟨a, ha, hpa⟩ := (hprime.dvd_prod_iff).1 hd
      obtain ⟨q, hq, rfl⟩ := List.mem_map.1 ha
      have h3 := hprime.dvd_of_dvd_pow hpa
      have h4 := hprime.irreducible.associated_of_dvd (hf.irreducible q (h1 q hq).1) h3
      exact (h1 q hq).2 (h.isFav_eq (hf.fav p hp) (hf.fav q (h1 q hq).1) h4).symm
  rw [this, add_zero]

/-- two valid factorizations of the same element have the same unit and the same factors with the same exponents -/
theorem valid_unique (a b : Factored α) (ha : a.Valid S v) (hb : b.Valid S v) (hab : a.denote v = b.denote v) :
    v a.unit = v b.unit ∧ (∀ p ∈ a.factors, ∃ q ∈ b.factors, v p.1 = v q.1 ∧ p.2 = q.2) := by
  have hfac : ∀ (a b : Factored α), a.Valid S v → b.Valid S v → a.denote v = b.denote v →
      ∀ p ∈ a.factors, ∃ q ∈ b.factors, v p.1 = v q.1 ∧ p.2 = q.2 := by
    intro a b ha hb hab p hp
    have hd : v p.1 ∣ b.denote v := by
      obtain ⟨l', -, h2⟩ := prod_split a.factors ha.distinct p hp
      rw [← hab, denote, h2]
      exact Dvd.dvd.mul_left (Dvd.dvd.mul_right (dvd_pow_self _ (ha.pos p hp).ne') _) _
    obtain ⟨q, hq, e⟩ := mem_of_irreducible_dvd h b hb (v p.1) (ha.irreducible p hp) (ha.fav p hp) hd
    refine ⟨q, hq, e.symm, ?_⟩
    have h1 := emultiplicity_eq h a ha p hp
    have h2 := emultiplicity_eq h b hb q hq
    rw [hab, ← e, h2] at h1
    exact_mod_cast h1.symm
  refine ⟨?_, hfac a b ha hb hab⟩
  have hperm : (a.factors.map fun p => (v p.1, p.2)).Perm (b.factors.map fun p => (v p.1, p.2)) := by
    have hnd : ∀ f : Factored α, f.Valid S v → (f.factors.map fun p => (v p.1, p.2)).Nodup := by
      intro f hf
      have := hf.distinct
      apply List.Nodup.of_map Prod.fst
      rw [List.map_map]; exact this
    rw [List.perm_ext_iff_of_nodup (hnd a ha) (hnd b hb)]
    rintro ⟨r, n⟩
    simp only [List.mem_map, Prod.mk.injEq]
    constructor
    · rintro ⟨p, hp, rfl, rfl⟩
      obtain ⟨q, hq, e1, e2⟩ := hfac a b ha hb hab p hp
      exact ⟨q, hq, e1.symm, e2.symm⟩
    · rintro ⟨p, hp, rfl, rfl⟩
      obtain ⟨q, hq, e1, e2⟩ := hfac b a hb ha hab.symm p hp
      exact ⟨q, hq, e1.symm, e2.symm⟩
  have hprod : (a.factors.map fun p => v p.1 ^ p.2).prod = (b.factors.map fun p => v p.1 ^ p.2).prod := by
    have := (hperm.map fun p => p.1 ^ p.2).prod_eq
    simpa [List.map_map, Function.comp_def] using this
  have hne : (b.factors.map fun p => v p.1 ^ p.2).prod ≠ 0 := by
    apply List.prod_ne_zero
    intro h0
    obtain ⟨p, hp, e⟩ := List.mem_map.1 h0
    exact pow_ne_zero _ (hb.irreducible p hp).ne_zero e
  rw [denote, denote, hprod] at hab
  exact mul_right_cancel₀ hne hab

omit [UniqueFactorizationMonoid R] in
theorem denote_ne_zero (f : Factored α) (hf : f.Valid S v) : f.denote v ≠ 0 := by
  refine mul_ne_zero hf.unit.ne_zero ?_
  apply List.prod_ne_zero
  intro h0
  obtain ⟨p, hp, e⟩ := List.mem_map.1 h0
  exact pow_ne_zero _ (hf.irreducible p hp).ne_zero e

end Unique

section Divisors
variable {α R : Type} [CommRing R] {S : FavOps α} {v : α → R}

/-- the values of the listed divisors -/
def divVals (v : α → R) : List (α × Nat) → List R
  | [] => [1]
  | p :: t => (List.range (p.2 + 1)).flatMap fun i => (divVals v t).map fun d => v p.1 ^ i * d

theorem powersLoop_vals (h : S.toSemiRingOps.Models v) (p : α) (n : Nat) (pw : α) :
    (powersLoop S p n pw).map v = (List.range n).map fun i => v pw * v p ^ i := by
  induction n generalizing pw with
  | zero => rfl
  | succ n ih =>
    rw [powersLoop, List.map_cons, ih, List.range_succ_eq_map, List.map_cons, List.map_map]
    simp only [pow_zero, mul_one, List.cons.injEq, true_and]
    apply List.map_congr_left
    intro i _
    simp only [h.mul, Function.comp, pow_succ]; ring

theorem cartesian_vals (h : S.toSemiRingOps.Models v) (l : List (α × Nat)) :
    ((multiCartesianProduct (l.map fun p => powersLoop S p.1 (p.2 + 1) S.one)).map S.product).map v = divVals v l := by
  induction l with
  | nil => simp [multiCartesianProduct, divVals, h.product]
  | cons p t ih =>
    simp only [List.map_cons, multiCartesianProduct, List.map_flatMap, List.map_map, divVals]
    have e := powersLoop_vals h p.1 (p.2 + 1) S.one
    have e2 : ∀ x, List.map (v ∘ S.product ∘ fun y => x :: y)
        (multiCartesianProduct (t.map fun p => powersLoop S p.1 (p.2 + 1) S.one))
        = (divVals v t).map fun d => v x * d := by
      intro x
      rw [← ih, List.map_map, List.map_map]
      apply List.map_congr_left
      intro y _
      simp [h.product]
    simp only [e2]
    rw [show (List.range (p.2 + 1)).flatMap (fun i => (divVals v t).map fun d => v p.1 ^ i * d)
      = ((List.range (p.2 + 1)).map fun i => v S.one * v p.1 ^ i).flatMap (fun r => (divVals v t).map fun d => r * d) by
        rw [List.flatMap_map]; simp [h.one], ← e, List.flatMap_map]

theorem divisors_vals (h : S.toSemiRingOps.Models v) (f : Factored α) : (f.divisors S).map v = divVals v f.factors := by
  unfold divisors
  rcases hf : f.factors with _ | ⟨p, t⟩
  · simp [divVals, h.one]
  · exact cartesian_vals h (p :: t)

theorem divVals_length (l : List (α × Nat)) : (divVals v l).length = (l.map fun p => p.2 + 1).prod := by
  induction l with
  | nil => rfl
  | cons p t ih => simp [divVals, List.length_flatMap, ih, List.map_const', List.sum_replicate]

theorem countDivisors_eq (f : Factored α) : f.countDivisors = (f.factors.map fun p => p.2 + 1).prod := by
  unfold countDivisors
  have : ∀ (l : List (α × Nat)) (c : Nat), l.foldl (fun c p => c * (p.2 + 1)) c = c * (l.map fun p => p.2 + 1).prod := by
    intro l
    induction l with
    | nil => simp
    | cons p t ih => intro c; simp [ih, mul_assoc]
  rw [this, one_mul]

theorem divVals_dvd (l : List (α × Nat)) (d : R) (hd : d ∈ divVals v l) : d ∣ (l.map fun p => v p.1 ^ p.2).prod := by
  induction l generalizing d with
  | nil => simp [divVals] at hd; simp [hd]
  | cons p t ih =>
    simp only [divVals, List.mem_flatMap, List.mem_range, List.mem_map] at hd
    obtain ⟨i, hi, d', hd', rfl⟩ := hd
    simp only [List.map_cons, List.prod_cons]
    exact mul_dvd_mul (pow_dvd_pow _ (by omega)) (ih d' hd')

theorem divVals_complete [IsDomain R] [UniqueFactorizationMonoid R] (l : List (α × Nat)) (hl : ∀ p ∈ l, Prime (v p.1)) (r : R)
    (hr : r ∣ (l.map fun p => v p.1 ^ p.2).prod) : ∃ d ∈ divVals v l, Associated r d := by
  induction l generalizing r with
  | nil => exact ⟨1, by simp [divVals], associated_one_iff_isUnit.2 (isUnit_of_dvd_one (by simpa using hr))⟩
  | cons p t ih =>
    simp only [List.map_cons, List.prod_cons] at hr
    obtain ⟨d1, d2, h1, h2, rfl⟩ := exists_dvd_and_dvd_of_dvd_mul hr
    obtain ⟨i, hi, ha⟩ := (dvd_prime_pow (hl p List.mem_cons_self) p.2).1 h1
    obtain ⟨d, hd, hd2⟩ := ih (fun q hq => hl q (List.mem_cons_of_mem _ hq)) d2 h2
    refine ⟨v p.1 ^ i * d, ?_, ha.mul_mul hd2⟩
    simp only [divVals, List.mem_flatMap, List.mem_range, List.mem_map]
    exact ⟨i, by omega, d, hd, rfl⟩

theorem divVals_pairwise [IsDomain R] (l : List (α × Nat)) (hl : ∀ p ∈ l, Prime (v p.1))
    (hna : l.Pairwise fun p q => ¬ Associated (v p.1) (v q.1)) :
    (divVals v l).Pairwise fun a b => ¬ Associated a b := by
  induction l with
  | nil => simp [divVals]
  | cons p t ih =>
    rw [List.pairwise_cons] at hna
    have hp := hl p List.mem_cons_self
    have hndvd : ¬ v p.1 ∣ (t.map fun q => v q.1 ^ q.2).prod := by
      intro hd
      obtain ⟨a, ha, hpa⟩ := (hp.dvd_prod_iff).1 hd
      obtain ⟨q, hq, rfl⟩ := List.mem_map.1 ha
      have h3 := hp.dvd_of_dvd_pow hpa
      exact hna.1 q hq (hp.irreducible.associated_of_dvd (hl q (List.mem_cons_of_mem _ hq)).irreducible h3)
    have hnd : ∀ d ∈ divVals v t, ¬ v p.1 ∣ d := fun d hd hh => hndvd (hh.trans (divVals_dvd t d hd))
    rw [divVals, List.pairwise_flatMap]
    constructor
    · intro i _
      rw [List.pairwise_map]
      refine (ih (fun q hq => hl q (List.mem_cons_of_mem _ hq)) hna.2).imp ?_
      intro a b hab hh
      exact hab ((Associated.of_mul_left hh (Associated.refl _) (pow_ne_zero _ hp.ne_zero)))
    · refine List.Pairwise.imp ?_ List.pairwise_lt_range
      intro i j hij x hx y hy hxy
      obtain ⟨a, ha, rfl⟩ := List.mem_map.1 hx
      obtain ⟨b, hb, rfl⟩ := List.mem_map.1 hy
      have h1 : v p.1 ^ j ∣ v p.1 ^ i * a := (Dvd.intro _ rfl).trans hxy.dvd'
      obtain ⟨k, rfl⟩ := Nat.exists_eq_add_of_lt hij
      rw [show i + k + 1 = i + (k + 1) by ring, pow_add, mul_dvd_mul_iff_left (pow_ne_zero _ hp.ne_zero)] at h1
      exact hnd a ha ((dvd_pow_self _ (by omega)).trans h1)

end Divisors

end Factored

section FindFactor
variable {α R : Type} [CommRing R] {S : FavOps α} {v : α → R} (h : S.Models v)
include h

theorem factorizeByFindFactor_specOn [IsDomain R] [UniqueFactorizationMonoid R]
    (Q : R → Prop) (hQ : ∀ a b, Q (a * b) → Q a ∧ Q b) (pf : α → Option (FindFactorResult α))
    (hpf : ∀ e, v e ≠ 0 → Q (v e) → ¬ IsUnit (v e) → ∃ r, pf e = some r ∧
      match r with
      | .irreducible => Irreducible (v e)
      | .composite g k => v e = v g * v k ∧ ¬ IsUnit (v g) ∧ ¬ IsUnit (v k))
    (e : α) (he : v e ≠ 0) (hqe : Q (v e)) :
    ∃ f, factorizeByFindFactor S pf e = some f ∧ f.Valid S v ∧ f.denote v = v e := by
  have wf : WellFounded (fun a b : R => DvdNotUnit a b) := wellFounded_dvdNotUnit
  induction hr : v e using wf.induction generalizing e with
  | _ r ih =>
    rw [factorizeByFindFactor]
    have hz : S.isZero e = false := (h.toSemi.isZero_false e).2 he
    simp only [hz, Bool.not_false, assertThat, if_true, Option.bind_eq_bind, Option.bind_some]
    rw [h.toDomain.isUnit]
    by_cases hu : IsUnit (v e)
    · refine ⟨Factored.factoredUnit e, by simp [hu], ⟨hu, by simp [Factored.factoredUnit], by simp [Factored.factoredUnit],
        by simp [Factored.factoredUnit], by simp [Factored.factoredUnit]⟩, by simp [Factored.denote, Factored.factoredUnit, hr]⟩
    · obtain ⟨s, s1, s2⟩ := hpf e he hqe hu
      simp only [hu, decide_false, Option.bind_some, Bool.false_eq_true, if_false, s1]
      cases s with
      | irreducible =>
        obtain ⟨f, f1, f2, f3⟩ := Factored.factoredIrreducible_spec h e s2
        exact ⟨f, f1, f2, by rw [f3, hr]⟩
      | composite g k =>
        obtain ⟨e1, e2, e3⟩ := s2
        have hqq := hQ _ _ (e1 ▸ hqe)
        have hg0 : v g ≠ 0 := fun e0 => he (by rw [e1, e0, zero_mul])
        have hk0 : v k ≠ 0 := fun e0 => he (by rw [e1, e0, mul_zero])
        obtain ⟨fg, g1, g2, g3⟩ := ih (v g) ⟨hg0, v k, e3, by rw [← hr, e1]⟩ g hg0 hqq.1 rfl
        obtain ⟨fk, k1, k2, k3⟩ := ih (v k) ⟨hk0, v g, e2, by rw [← hr, e1, mul_comm]⟩ k hk0 hqq.2 rfl
        obtain ⟨f, f1, f2, f3⟩ := Factored.mul_spec h fg fk g2.fav k2.fav
        exact ⟨f, by simp [g1, k1, f1], f3 g2 k2, by rw [f2, g3, k3, ← e1, hr]⟩

theorem factorizeByFindFactor_spec [IsDomain R] [UniqueFactorizationMonoid R]
    (pf : α → Option (FindFactorResult α))
    (hpf : ∀ e, v e ≠ 0 → ¬ IsUnit (v e) → ∃ r, pf e = some r ∧
      match r with
      | .irreducible => Irreducible (v e)
      | .composite g k => v e = v g * v k ∧ ¬ IsUnit (v g) ∧ ¬ IsUnit (v k))
    (e : α) (he : v e ≠ 0) :
    ∃ f, factorizeByFindFactor S pf e = some f ∧ f.Valid S v ∧ f.denote v = v e := by
  refine factorizeByFindFactor_specOn h (fun _ => True) (fun _ _ _ => ⟨trivial, trivial⟩) pf (fun e he _ hu => hpf e he hu) e he trivial

end FindFactor

end Verif.Rings
