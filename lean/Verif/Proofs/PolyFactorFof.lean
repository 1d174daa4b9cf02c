import Verif.Proofs.Kronecker
import Verif.Proofs.PolyFof

/-!
# Trying all factors; factoring over a field of fractions
-/

namespace Verif.Rings

open Polynomial

section All
variable {α K : Type} [Field K] {S : DomainOps α} {v : α → K} (h : S.Models v)
include h

theorem monicCandidates_sound (units : List α) (d : Nat) (g : List α) (hg : g ∈ S.monicCandidates units d) :
    (polyVal v g).Monic ∧ (polyVal v g).natDegree = d + 1 := by
  obtain ⟨l, hl, rfl⟩ := List.mem_map.1 hg
  have hlen : l.length = d + 1 := by
    have := ((mem_multiCartesianProduct _ _).1 hl).length_eq
    simpa using this
  have e : polyVal v (l ++ [S.one]) = X ^ (d + 1) + polyVal v l := by
    rw [polyVal_append, hlen]; simp [h.one]; ring
  have hd : (polyVal v l).degree < ((d + 1 : ℕ) : WithBot ℕ) := by
    rw [degree_lt_iff_coeff_zero]
    intro m hm
    exact coeff_polyVal_ge v l m (by omega)
  have hm : (X ^ (d + 1) + polyVal v l).Monic := monic_X_pow_add hd
  refine ⟨by rw [e]; exact hm, ?_⟩
  rw [e, natDegree_add_eq_left_of_degree_lt (by rwa [degree_X_pow]), natDegree_X_pow]

theorem monicCandidates_complete (units : List α) (hu : ∀ u, u ≠ 0 → ∃ x ∈ units, v x = u) (d : Nat) (P : K[X]) (hP : P.Monic)
    (hd : P.natDegree = d + 1) : ∃ g ∈ S.monicCandidates units d, polyVal v g = P := by
  have hc : ∀ i, ∃ x ∈ S.zero :: units, v x = P.coeff i := by
    intro i
    by_cases h0 : P.coeff i = 0
    · exact ⟨S.zero, List.mem_cons_self, by rw [h.zero, h0]⟩
    · obtain ⟨x, hx, e⟩ := hu _ h0
      exact ⟨x, List.mem_cons_of_mem _ hx, e⟩
  choose c c1 c2 using hc
  refine ⟨(List.range (d + 1)).map c ++ [S.one], List.mem_map.2 ⟨_, ?_, rfl⟩, ?_⟩
  · rw [mem_multiCartesianProduct, List.forall₂_iff_get]
    simp [c1]
  · rw [polyVal_append]
    ext i
    rw [coeff_add, List.length_map, List.length_range]
    simp only [polyVal_cons, polyVal_nil, h.one, C_1, mul_zero, add_zero, mul_one, coeff_X_pow]
    rw [coeff_polyVal v S.zero h.zero]
    rcases Nat.lt_trichotomy i (d + 1) with hi | hi | hi
    · rw [if_neg (by omega), List.getD_eq_getElem?_getD, List.getElem?_map, List.getElem?_range hi]
      simp [c2]
    · subst hi
      rw [if_pos rfl, List.getD_eq_getElem?_getD, List.getElem?_eq_none (by simp)]
      have := hP.coeff_natDegree
      rw [hd] at this
      simp [h.zero, this]
    · rw [if_neg (by omega), List.getD_eq_getElem?_getD, List.getElem?_eq_none (by simp; omega),
        coeff_eq_zero_of_natDegree_lt (by omega)]
      simp [h.zero]

theorem tryAllFindFactor_spec (units : List α) (hu : ∀ u, u ≠ 0 → ∃ x ∈ units, v x = u) (f : List α)
    (hf : polyVal v f ≠ 0) (hn : ¬ IsUnit (polyVal v f)) :
    ∃ r, S.tryAllFindFactor units f = some r ∧
      match r with
      | .irreducible => Irreducible (polyVal v f)
      | .composite g k => polyVal v f = polyVal v g * polyVal v k ∧ ¬ IsUnit (polyVal v g) ∧ ¬ IsUnit (polyVal v k) := by
  have nu (g : K[X]) (hg : 1 ≤ g.natDegree) : ¬ IsUnit g := fun e => by
    have := natDegree_eq_zero_of_isUnit e
    omega
  have un (g : K[X]) (h0 : g ≠ 0) (hg : ¬ IsUnit g) : 1 ≤ g.natDegree := by
    by_contra hc
    refine hg (isUnit_iff_degree_eq_zero.2 ?_)
    rw [degree_eq_natDegree h0]
    norm_cast; omega
  rw [DomainOps.tryAllFindFactor, h.toSemi.polyDegree_some f hf]
  simp only [Option.bind_eq_bind, Option.bind_some]
  have hmem (g : List α) : g ∈ (List.range ((polyVal v f).natDegree / 2)).flatMap (S.monicCandidates units) ↔
      ∃ d < (polyVal v f).natDegree / 2, g ∈ S.monicCandidates units d := by
    simp [List.mem_flatMap]
  have hg0 (g : List α) (hg : g ∈ (List.range ((polyVal v f).natDegree / 2)).flatMap (S.monicCandidates units)) :
      polyVal v g ≠ 0 := by
    obtain ⟨d, -, hd⟩ := (hmem g).1 hg
    exact (monicCandidates_sound h units d g hd).1.ne_zero
  obtain ⟨r, r1, r2⟩ := searchFactor_spec (S.tryFactor f) _ (fun g hg => by
    rcases tryFactor_spec h f g (hg0 g hg) with ⟨-, e⟩ | ⟨k, e, -⟩
    · exact ⟨_, e⟩
    · exact ⟨_, e⟩)
  refine ⟨r, r1, ?_⟩
  cases r with
  | composite g k =>
    obtain ⟨g', hg', e⟩ := r2
    rcases tryFactor_spec h f g' (hg0 g' hg') with ⟨-, e'⟩ | ⟨k', e', e2⟩
    · rw [e] at e'; simp at e'
    · rw [e] at e'
      simp only [Option.some.injEq, Prod.mk.injEq] at e'
      obtain ⟨rfl, rfl⟩ := e'
      obtain ⟨d, hd, hdm⟩ := (hmem g).1 hg'
      have h1 := (monicCandidates_sound h units d g hdm).2
      have hk0 : polyVal v k ≠ 0 := fun e0 => hf (by rw [e2, e0, mul_zero])
      have h2 := natDegree_mul (hg0 g hg') hk0
      rw [← e2] at h2
      exact ⟨e2, nu _ (by omega), nu _ (by omega)⟩
  | irreducible =>
    by_contra hirr
    have : ∃ a b, polyVal v f = a * b ∧ ¬ IsUnit a ∧ ¬ IsUnit b := by
      by_contra hc
      push Not at hc
      exact hirr ⟨hn, fun a b hab => by
        by_cases ha : IsUnit a
        · exact Or.inl ha
        · exact Or.inr (hc a b hab ha)⟩
    obtain ⟨P, hP1, hP2, hP3⟩ : ∃ P : K[X], P ∣ polyVal v f ∧ 1 ≤ P.natDegree ∧ P.natDegree ≤ (polyVal v f).natDegree / 2 := by
      obtain ⟨a, b, hab, ha, hb⟩ := this
      have ha0 : a ≠ 0 := fun e => hf (by rw [hab, e, zero_mul])
      have hb0 : b ≠ 0 := fun e => hf (by rw [hab, e, mul_zero])
      have h2 := natDegree_mul ha0 hb0
      rw [← hab] at h2
      have := un a ha0 ha
      have := un b hb0 hb
      rcases Nat.lt_or_ge ((polyVal v f).natDegree / 2) a.natDegree with hlt | hge
      · exact ⟨b, hab ▸ dvd_mul_left _ _, by omega, by omega⟩
      · exact ⟨a, hab ▸ dvd_mul_right _ _, by omega, by omega⟩
    have hP0 : P ≠ 0 := fun e => by rw [e] at hP2; simp at hP2
    have hm : (P * C P.leadingCoeff⁻¹).Monic := monic_mul_leadingCoeff_inv hP0
    have hdeg : (P * C P.leadingCoeff⁻¹).natDegree = P.natDegree :=
      natDegree_mul_C (inv_ne_zero (leadingCoeff_ne_zero.2 hP0))
    obtain ⟨g, g1, g2⟩ := monicCandidates_complete h units hu (P.natDegree - 1) _ hm (by rw [hdeg]; omega)
    have hg := (hmem g).2 ⟨P.natDegree - 1, by omega, g1⟩
    rcases tryFactor_spec h f g (hg0 g hg) with ⟨t1, -⟩ | ⟨k, t1, -⟩
    · apply t1
      rw [g2]
      have : IsUnit (C P.leadingCoeff⁻¹) := isUnit_C.2 (isUnit_iff_ne_zero.2 (inv_ne_zero (leadingCoeff_ne_zero.2 hP0)))
      exact (this.mul_right_dvd).2 hP1
    · rw [r2 g hg] at t1; simp at t1

theorem factorizeTryAll_spec (units : List α) (hu : ∀ u, u ≠ 0 → ∃ x ∈ units, v x = u) (f : List α) (hf : polyVal v f ≠ 0) :
    ∃ r, S.factorizeTryAll units f = some (some r) ∧ r.Valid S.fieldFav.poly (polyVal v) ∧ r.denote (polyVal v) = polyVal v f := by
  obtain ⟨r, r1, r2⟩ := factorizeByFindFactor_spec h.fieldFav.poly (S.tryAllFindFactor units) (by
    intro e he hu'
    obtain ⟨r, r1, r2⟩ := tryAllFindFactor_spec h units hu e he hu'
    refine ⟨r, r1, ?_⟩
    cases r <;> exact r2) f hf
  refine ⟨r, ?_, r2⟩
  rw [DomainOps.factorizeTryAll, if_neg (fun e => hf ((h.toSemi.poly.isZero f).1 e)), r1]; rfl

end All

section Fof
variable {α β K R : Type} [Field K] [CommRing R] [Algebra R K] {S : DomainOps α} {B : GcdOps β}
  {v : α → K} {w : β → R} {fromBase : β → α} {num den : α → β}
  (hS : S.Models v) (hF : FofModels fromBase num den v w)
include hS hF

theorem fof_map_val (p : List β) : polyVal v (p.map fromBase) = (polyVal w p).map (algebraMap R K) := by
  induction p with
  | nil => simp
  | cons c p ih => simp [ih, hF.fromBase]

/-- the leading coefficient is split off every factor once, whatever its exponent -/
theorem fofFactorStep_spec [IsFractionRing R K] (st : List α × List (List α × Nat)) (p : List β × Nat) (hp : polyVal w p.1 ≠ 0) :
    ∃ u g, fofFactorStep S fromBase st p = some (u, st.2 ++ [(g, p.2)]) ∧
      polyVal v u = polyVal v st.1 * C (algebraMap R K (polyVal w p.1).leadingCoeff) ∧
      (polyVal v g).Monic ∧ (polyVal w p.1).map (algebraMap R K) = C (algebraMap R K (polyVal w p.1).leadingCoeff) * polyVal v g := by
  have hinj : Function.Injective (algebraMap R K) := IsFractionRing.injective R K
  have hv := fof_map_val hS hF p.1
  have hne : polyVal v (p.1.map fromBase) ≠ 0 := by
    rw [hv, Ne, Polynomial.map_eq_zero_iff hinj]; exact hp
  obtain ⟨l, u, c, g, l1, l2, l3, l4, l5, l6⟩ := hS.fieldFav.polyFactorFavAssoc_ne _ hne
  have hlc : (polyVal v (p.1.map fromBase)).leadingCoeff = algebraMap R K (polyVal w p.1).leadingCoeff := by
    rw [hv, leadingCoeff_map_of_injective hinj]
  have hu : v u = algebraMap R K (polyVal w p.1).leadingCoeff := by
    have hl0 : S.isZero l = false := (hS.toSemi.isZero_false l).2 (by rw [l1]; exact leadingCoeff_ne_zero.2 hne)
    have : S.fieldFav.factorFavAssoc l = some (l, S.one) := by simp [DomainOps.fieldFav, hl0]
    rw [this] at l2
    cases l2
    rw [l1, hlc]
  refine ⟨S.polyMul st.1 (polyConst u), g, ?_, ?_, ?_, ?_⟩
  · have l5' : S.fieldFav.poly.factorFavAssoc (p.1.map fromBase) = some (polyConst u, g) := l5
    rw [fofFactorStep, l5']; rfl
  · rw [hS.toSemi.polyMul, polyVal_const, hu]
  · have h1 := congrArg leadingCoeff l6
    rw [leadingCoeff_mul, leadingCoeff_C, hu, hlc] at h1
    have h0 : algebraMap R K (polyVal w p.1).leadingCoeff ≠ 0 := by
      rw [← hlc]; exact leadingCoeff_ne_zero.2 hne
    exact (mul_right_injective₀ h0 (by simpa using h1)).symm
  · rw [← hv, l6, hu]

theorem fofFactor_fold [IsFractionRing R K] (l : List (List β × Nat)) (hl : ∀ p ∈ l, polyVal w p.1 ≠ 0)
    (st : List α × List (List α × Nat)) :
    ∃ u gs, l.foldlM (fofFactorStep S fromBase) st = some (u, st.2 ++ gs) ∧
      polyVal v u = polyVal v st.1 * (l.map fun p => C (algebraMap R K (polyVal w p.1).leadingCoeff)).prod ∧
      List.Forall₂ (fun p q => q.2 = p.2 ∧ (polyVal v q.1).Monic ∧ (polyVal w p.1).map (algebraMap R K)
        = C (algebraMap R K (polyVal w p.1).leadingCoeff) * polyVal v q.1) l gs := by
  induction l generalizing st with
  | nil => exact ⟨st.1, [], by simp [pure], by simp, .nil⟩
  | cons p l ih =>
    obtain ⟨u, g, h1, h2, h3, h4⟩ := fofFactorStep_spec hS hF st p (hl p List.mem_cons_self)
    obtain ⟨u', gs, k1, k2, k3⟩ := ih (fun q hq => hl q (List.mem_cons_of_mem _ hq)) (u, st.2 ++ [(g, p.2)])
    refine ⟨u', (g, p.2) :: gs, ?_, ?_, .cons ⟨rfl, h3, h4⟩ k3⟩
    · rw [List.foldlM_cons, h1]
      simpa using k1
    · rw [k2, h2]; simp [mul_assoc]

variable [UniqueFactorizationMonoid R] [IsDomain R]

theorem isFav_monic {g : K[X]} (hg : g.Monic) : S.fieldFav.poly.IsFav (polyVal v) g := by
  intro a u w' ha e
  have hne : polyVal v a ≠ 0 := by rw [ha]; exact hg.ne_zero
  obtain ⟨l, u', c, g', l1, l2, l3, l4, l5, l6⟩ := hS.fieldFav.polyFactorFavAssoc_ne a hne
  have e' : S.fieldFav.polyFactorFavAssoc a = some (u, w') := e
  rw [l5] at e'
  cases e'
  have hl0 : S.isZero l = false := (hS.toSemi.isZero_false l).2 (by rw [l1]; exact leadingCoeff_ne_zero.2 hne)
  have : S.fieldFav.factorFavAssoc l = some (l, S.one) := by simp [DomainOps.fieldFav, hl0]
  rw [this] at l2
  cases l2
  rw [l1, ha, hg.leadingCoeff, C_1, one_mul] at l6
  exact l6.symm

/-- The second half of the function on a valid factorization of a primitive polynomial. -/
theorem fofFactorFinish_spec [IsFractionRing R K] (c : α) (hc : v c ≠ 0) (pf : Factored (List β)) {T : FavOps (List β)}
    (hT : T.Models (polyVal w)) (hpf : pf.Valid T (polyVal w)) (hprim : (pf.denote (polyVal w)).IsPrimitive) :
    ∃ r, fofFactorFinish S fromBase c pf = some r ∧ r.Valid S.fieldFav.poly (polyVal v) ∧
      r.denote (polyVal v) * (pf.factors.map fun p => C (algebraMap R K (polyVal w p.1).leadingCoeff) ^ (p.2 - 1)).prod
        = C (v c) * (pf.denote (polyVal w)).map (algebraMap R K) := by
  have hinj : Function.Injective (algebraMap R K) := IsFractionRing.injective R K
  obtain ⟨u, gs, h1, h2, h3⟩ := fofFactor_fold hS hF pf.factors (fun p hp => (hpf.irreducible p hp).ne_zero)
    (pf.unit.map fromBase, [])
  rw [List.nil_append] at h1
  have hmem : ∀ q ∈ gs, ∃ p ∈ pf.factors, q.2 = p.2 ∧ (polyVal v q.1).Monic ∧ (polyVal w p.1).map (algebraMap R K)
        = C (algebraMap R K (polyVal w p.1).leadingCoeff) * polyVal v q.1 := by
    intro q hq
    obtain ⟨i, hi, rfl⟩ := List.getElem_of_mem hq
    have := h3.get (i := i) (by rw [h3.length_eq]; exact hi) hi
    exact ⟨_, List.getElem_mem _, this⟩
  have hlc0 : ∀ p ∈ pf.factors, algebraMap R K (polyVal w p.1).leadingCoeff ≠ 0 := fun p hp => by
    rw [Ne, map_eq_zero_iff _ hinj]
    exact leadingCoeff_ne_zero.2 (hpf.irreducible p hp).ne_zero
  have hpp : ∀ p ∈ pf.factors, (polyVal w p.1).IsPrimitive := fun p hp =>
    isPrim_of_dvd hprim (Factored.denote_dvd hp (hpf.pos p hp))
  have hunit : IsUnit (polyVal v (pf.unit.map fromBase)) := by
    rw [fof_map_val hS hF]; exact hpf.unit.map (mapRingHom (algebraMap R K))
  refine ⟨⟨S.polyMul (polyConst c) u, gs⟩, by rw [fofFactorFinish, h1]; rfl, ⟨?_, ?_, ?_, ?_, ?_⟩, ?_⟩
  · show IsUnit (polyVal v (S.polyMul (polyConst c) u))
    rw [hS.toSemi.polyMul, polyVal_const, h2]
    refine (isUnit_C.2 (isUnit_iff_ne_zero.2 hc)).mul (hunit.mul ?_)
    rw [List.prod_isUnit_iff]
    intro a ha
    obtain ⟨p, hp, rfl⟩ := List.mem_map.1 ha
    exact isUnit_C.2 (isUnit_iff_ne_zero.2 (hlc0 p hp))
  · intro q hq
    obtain ⟨p, hp, -, -, e⟩ := hmem q hq
    have hi : Irreducible ((polyVal w p.1).map (algebraMap R K)) :=
      (IsPrimitive.irreducible_iff_irreducible_map_fraction_map (hpp p hp)).1 (hpf.irreducible p hp)
    have ha : Associated ((polyVal w p.1).map (algebraMap R K)) (polyVal v q.1) := by
      rw [e]
      exact (associated_isUnit_mul_left_iff (isUnit_C.2 (isUnit_iff_ne_zero.2 (hlc0 p hp)))).2 (Associated.refl _)
    exact ha.irreducible hi
  · intro q hq
    obtain ⟨p, -, -, hm, -⟩ := hmem q hq
    exact isFav_monic hS hF hm
  · intro q hq
    obtain ⟨p, hp, e, -⟩ := hmem q hq
    rw [e]; exact hpf.pos p hp
  · show (gs.map fun q => polyVal v q.1).Nodup
    rw [List.nodup_iff_injective_get]
    intro i j hij
    simp only [List.get_eq_getElem, List.getElem_map] at hij
    have hi : (i : Nat) < gs.length := by simpa using i.2
    have hj : (j : Nat) < gs.length := by simpa using j.2
    have hip : (i : Nat) < pf.factors.length := by rw [h3.length_eq]; exact hi
    have hjp : (j : Nat) < pf.factors.length := by rw [h3.length_eq]; exact hj
    obtain ⟨-, -, ei⟩ := h3.get (i := i) hip hi
    obtain ⟨-, -, ej⟩ := h3.get (i := j) hjp hj
    simp only [List.get_eq_getElem] at ei ej
    have hci := hlc0 _ (List.getElem_mem hip)
    have hcj := hlc0 _ (List.getElem_mem hjp)
    have dv : ∀ a b : β → R, True := fun _ _ => trivial
    have hdvd (p q : List β × Nat) (hp : p ∈ pf.factors) (g : K[X])
        (e1 : (polyVal w p.1).map (algebraMap R K) = C (algebraMap R K (polyVal w p.1).leadingCoeff) * g)
        (e2 : (polyVal w q.1).map (algebraMap R K) = C (algebraMap R K (polyVal w q.1).leadingCoeff) * g) :
        polyVal w p.1 ∣ polyVal w q.1 := by
      refine (hpp p hp).dvd_of_fraction_map_dvd_fraction_map (K := K) ?_
      rw [e1, e2]
      exact (isUnit_C.2 (isUnit_iff_ne_zero.2 (hlc0 p hp))).mul_left_dvd.2 (dvd_mul_left _ _)
    have ha : Associated (polyVal w pf.factors[(i : Nat)].1) (polyVal w pf.factors[(j : Nat)].1) :=
      associated_of_dvd_dvd (hdvd _ _ (List.getElem_mem hip) _ ei (hij ▸ ej))
        (hdvd _ _ (List.getElem_mem hjp) _ ej (hij ▸ ei))
    have he := hT.isFav_eq (hpf.fav _ (List.getElem_mem hip)) (hpf.fav _ (List.getElem_mem hjp)) ha
    have := List.nodup_iff_injective_get.1 hpf.distinct (a₁ := ⟨i, by simpa using hip⟩) (a₂ := ⟨j, by simpa using hjp⟩) (by simpa using he)
    simp only [Fin.mk.injEq] at this
    exact Fin.ext this
  · have hprod : ∀ (l : List (List β × Nat)) (gs : List (List α × Nat)), (∀ p ∈ l, 0 < p.2) →
        List.Forall₂ (fun p q => q.2 = p.2 ∧ (polyVal v q.1).Monic ∧ (polyVal w p.1).map (algebraMap R K)
          = C (algebraMap R K (polyVal w p.1).leadingCoeff) * polyVal v q.1) l gs →
        (l.map fun p => C (algebraMap R K (polyVal w p.1).leadingCoeff)).prod * (gs.map fun q => polyVal v q.1 ^ q.2).prod
          * (l.map fun p => C (algebraMap R K (polyVal w p.1).leadingCoeff) ^ (p.2 - 1)).prod
          = ((l.map fun p => polyVal w p.1 ^ p.2).prod).map (algebraMap R K) := by
      intro l gs hpos hf
      induction hf with
      | nil => simp
      | @cons p q l gs hpq _ ih =>
        have ih := ih fun p hp => hpos p (List.mem_cons_of_mem _ hp)
        obtain ⟨e1, -, e2⟩ := hpq
        have h0 := hpos p List.mem_cons_self
        simp only [List.map_cons, List.prod_cons, Polynomial.map_mul, Polynomial.map_pow, ← ih, e2, e1]
        obtain ⟨k, hk⟩ : ∃ k, p.2 = k + 1 := ⟨p.2 - 1, by omega⟩
        rw [hk, Nat.add_sub_cancel, mul_pow, pow_succ (C (algebraMap R K (polyVal w p.1).leadingCoeff))]
        ring
    have := hprod _ _ hpf.pos h3
    rw [Factored.denote, Factored.denote, Polynomial.map_mul, ← this]
    show polyVal v (S.polyMul (polyConst c) u) * _ * _ = _
    rw [hS.toSemi.polyMul, polyVal_const, h2, fof_map_val hS hF]
    ring

end Fof

end Verif.Rings
