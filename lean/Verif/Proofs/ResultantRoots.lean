import Mathlib.RingTheory.Polynomial.Resultant.Basic
import Mathlib.FieldTheory.IsAlgClosed.Basic
import Mathlib.Analysis.Complex.Polynomial.Basic

/-!
# Resultants of polynomials with parameters
-/

namespace Verif.Rings

open Polynomial

/-- Reading an integer polynomial at a point of a ring. -/
noncomputable def atPoint {A : Type} [CommRing A] (w : A) : ℤ[X] →+* A := eval₂RingHom (Int.castRingHom A) w

theorem atPoint_C {A : Type} [CommRing A] (w : A) (n : ℤ) : atPoint w (C n) = (n : A) := by simp [atPoint]

theorem atPoint_X {A : Type} [CommRing A] (w : A) : atPoint w X = w := by simp [atPoint]

theorem map_atPoint_C {A : Type} [CommRing A] (w : A) (p : ℤ[X]) : (p.map C).map (atPoint w) = p.map (Int.castRingHom A) := by
  rw [Polynomial.map_map]; congr 1; exact RingHom.ext_int _ _

/-- The resultant vanishes where the polynomials have a common root. -/
theorem resultant_at_common {f g : ℤ[X][X]} {A : Type} [CommRing A] (w y : A) (hd : f.natDegree ≠ 0 ∨ g.natDegree ≠ 0)
    (hf : (f.map (atPoint w)).eval y = 0) (hg : (g.map (atPoint w)).eval y = 0) : atPoint w (f.resultant g) = 0 := by
  obtain ⟨a, b, -, -, e⟩ := exists_mul_add_mul_eq_C_resultant f g le_rfl le_rfl hd
  have := congrArg (fun h : ℤ[X][X] => (h.map (atPoint w)).eval y) e
  simp only [Polynomial.map_add, Polynomial.map_mul, eval_add, eval_mul, hf, hg, zero_mul, add_zero, Polynomial.map_C, eval_C] at this
  exact this.symm

/-- The resultant at a value of the parameter is not zero if there is no common root and the degrees do not drop. -/
theorem resultant_at_ne_zero {f g : ℤ[X][X]} (c : ℂ) (hf : (f.map (atPoint c)).natDegree = f.natDegree)
    (hg : (g.map (atPoint c)).natDegree = g.natDegree)
    (h : ∀ y : ℂ, (f.map (atPoint c)).eval y = 0 → (g.map (atPoint c)).eval y ≠ 0) : atPoint c (f.resultant g) ≠ 0 := by
  intro h0
  have e : (f.map (atPoint c)).resultant (g.map (atPoint c)) = 0 := by
    rw [hf, hg, resultant_map_map, h0]
  refine resultant_ne_zero _ _ ((isCoprime_iff_aeval_ne_zero_of_isAlgClosed ℂ ℂ _ _).2 fun y => ?_) e
  by_contra hc
  push Not at hc
  simp only [coe_aeval_eq_eval] at hc
  exact h y hc.1 hc.2

/-! ## Sums -/

/-- `q(z - y)`, a polynomial in `y` with parameter `z`. -/
noncomputable def shiftVar (q : ℤ[X]) : ℤ[X][X] := (q.map C).comp (C X - X)

theorem shiftVar_map {A : Type} [CommRing A] (q : ℤ[X]) (w : A) : (shiftVar q).map (atPoint w) = (q.map (Int.castRingHom A)).comp (C w - X) := by
  rw [shiftVar, Polynomial.map_comp, map_atPoint_C]; simp [atPoint_X]

theorem natDegree_C_sub_X {A : Type} [CommRing A] [Nontrivial A] (w : A) : (C w - X : A[X]).natDegree = 1 := by
  rw [natDegree_sub, natDegree_X_sub_C]

theorem shiftVar_natDegree (q : ℤ[X]) : (shiftVar q).natDegree = q.natDegree := by
  rw [shiftVar, natDegree_comp, natDegree_C_sub_X, mul_one, natDegree_map_eq_of_injective C_injective]

theorem shiftVar_ne_zero {q : ℤ[X]} (hq : q ≠ 0) : shiftVar q ≠ 0 := by
  intro h
  have := congrArg (fun h : ℤ[X][X] => h.comp (C X - X)) h
  simp only [shiftVar, comp_assoc, zero_comp] at this
  rw [show (C X - X : ℤ[X][X]).comp (C X - X) = X by simp, comp_X] at this
  exact hq ((Polynomial.map_eq_zero_iff C_injective).1 this)

theorem exists_not_sum (s t : Finset ℂ) : ∃ c : ℂ, ∀ y ∈ s, ∀ y' ∈ t, c ≠ y + y' := by
  obtain ⟨c, hc⟩ := Infinite.exists_notMem_finset (Finset.image₂ (· + ·) s t)
  exact ⟨c, fun y hy y' hy' e => hc (Finset.mem_image₂.2 ⟨y, hy, y', hy', e.symm⟩)⟩

theorem exists_not_prod (s t : Finset ℂ) : ∃ c : ℂ, c ≠ 0 ∧ ∀ y ∈ s, ∀ y' ∈ t, c ≠ y * y' := by
  obtain ⟨c, hc⟩ := Infinite.exists_notMem_finset (insert 0 (Finset.image₂ (· * ·) s t))
  rw [Finset.mem_insert, not_or] at hc
  exact ⟨c, hc.1, fun y hy y' hy' e => hc.2 (Finset.mem_image₂.2 ⟨y, hy, y', hy', e.symm⟩)⟩

theorem castC_inj : Function.Injective (Int.castRingHom ℂ) := Int.cast_injective

theorem mem_rootsC {p : ℤ[X]} (hp : p ≠ 0) {y : ℂ} (hy : (p.map (Int.castRingHom ℂ)).eval y = 0) :
    y ∈ (p.map (Int.castRingHom ℂ)).roots.toFinset := by
  rw [Multiset.mem_toFinset, mem_roots ((Polynomial.map_ne_zero_iff castC_inj).2 hp)]; exact hy

/-- The resultant for the sums is zero only at sums of roots. -/
theorem sum_resultant_at {p q : ℤ[X]} (c : ℂ)
    (hc : ∀ y y', (p.map (Int.castRingHom ℂ)).eval y = 0 → (q.map (Int.castRingHom ℂ)).eval y' = 0 → c ≠ y + y') :
    atPoint c ((p.map C).resultant (shiftVar q)) ≠ 0 ∧ atPoint c ((shiftVar q).resultant (p.map C)) ≠ 0 := by
  have h1 : ((p.map C).map (atPoint c)).natDegree = (p.map C : ℤ[X][X]).natDegree := by
    rw [map_atPoint_C, natDegree_map_eq_of_injective castC_inj, natDegree_map_eq_of_injective C_injective]
  have h2 : ((shiftVar q).map (atPoint c)).natDegree = (shiftVar q).natDegree := by
    rw [shiftVar_map, natDegree_comp, natDegree_C_sub_X, mul_one, natDegree_map_eq_of_injective castC_inj, shiftVar_natDegree]
  have h3 : ∀ y : ℂ, ((p.map C).map (atPoint c)).eval y = 0 → ((shiftVar q).map (atPoint c)).eval y ≠ 0 := by
    intro y hy hy'
    rw [map_atPoint_C] at hy
    rw [shiftVar_map, eval_comp] at hy'
    simp only [eval_sub, eval_C, eval_X] at hy'
    exact hc y (c - y) hy hy' (by ring)
  exact ⟨resultant_at_ne_zero c h1 h2 h3, resultant_at_ne_zero c h2 h1 fun y a b => h3 y b a⟩

/-- The resultant for the sums: not zero, for either order of the two polynomials. -/
theorem sum_resultant_ne_zero {p q : ℤ[X]} (hp : p ≠ 0) (hq : q ≠ 0) :
    (p.map C).resultant (shiftVar q) ≠ 0 ∧ (shiftVar q).resultant (p.map C) ≠ 0 := by
  obtain ⟨c, hc⟩ := exists_not_sum (p.map (Int.castRingHom ℂ)).roots.toFinset (q.map (Int.castRingHom ℂ)).roots.toFinset
  obtain ⟨h1, h2⟩ := sum_resultant_at (p := p) (q := q) c fun y y' hy hy' => hc y (mem_rootsC hp hy) y' (mem_rootsC hq hy')
  exact ⟨fun e => h1 (by rw [e, map_zero]), fun e => h2 (by rw [e, map_zero])⟩

/-! ## Products -/

/-- `y^n q(z/y)`, a polynomial in `y` with parameter `z`. -/
noncomputable def twistVar (q : ℤ[X]) : ℤ[X][X] :=
  ∑ i ∈ Finset.range (q.natDegree + 1), monomial (q.natDegree - i) (C (q.coeff i) * X ^ i)

theorem twistVar_coeff (q : ℤ[X]) (j : ℕ) :
    (twistVar q).coeff j = if j ≤ q.natDegree then C (q.coeff (q.natDegree - j)) * X ^ (q.natDegree - j) else 0 := by
  rw [twistVar, finset_sum_coeff]
  simp only [coeff_monomial]
  split_ifs with h
  · rw [Finset.sum_eq_single (q.natDegree - j)]
    · rw [if_pos (by omega)]
    · intro i hi hne
      rw [Finset.mem_range] at hi
      rw [if_neg (by omega)]
    · intro hn; exact absurd (Finset.mem_range.2 (by omega)) hn
  · refine Finset.sum_eq_zero fun i hi => ?_
    rw [if_neg (by omega)]

theorem twistVar_ne_zero {q : ℤ[X]} (hq : q ≠ 0) : twistVar q ≠ 0 := by
  intro h
  have := congrArg (fun h : ℤ[X][X] => h.coeff 0) h
  simp only [twistVar_coeff, coeff_zero, zero_le, if_true, Nat.sub_zero] at this
  rcases mul_eq_zero.1 this with e | e
  · exact hq (leadingCoeff_eq_zero.1 (C_eq_zero.1 e))
  · exact pow_ne_zero _ X_ne_zero e

theorem twistVar_eval {A : Type} [CommRing A] (q : ℤ[X]) (w y : A) :
    ((twistVar q).map (atPoint w)).eval y = ∑ i ∈ Finset.range (q.natDegree + 1), (q.coeff i : A) * w ^ i * y ^ (q.natDegree - i) := by
  rw [twistVar, Polynomial.map_sum, eval_finset_sum]
  refine Finset.sum_congr rfl fun i _ => ?_
  rw [map_monomial, eval_monomial, map_mul, map_pow, atPoint_C, atPoint_X]

/-- At a product, `y^n q(z)`. -/
theorem twistVar_eval_mul {A : Type} [CommRing A] (q : ℤ[X]) (y z : A) :
    ((twistVar q).map (atPoint (y * z))).eval y = y ^ q.natDegree * (q.map (Int.castRingHom A)).eval z := by
  rw [twistVar_eval, eval_map, eval₂_eq_sum_range, Finset.mul_sum]
  refine Finset.sum_congr rfl fun i hi => ?_
  rw [Finset.mem_range] at hi
  rw [show y ^ q.natDegree = y ^ i * y ^ (q.natDegree - i) by rw [← pow_add]; congr 1; omega, mul_pow]
  simp only [eq_intCast]
  ring

theorem twistVar_natDegree_map {q : ℤ[X]} (hq : q ≠ 0) {c : ℂ} (hc : c ≠ 0) :
    ((twistVar q).map (atPoint c)).natDegree = (twistVar q).natDegree := by
  refine natDegree_map_of_leadingCoeff_ne_zero _ ?_
  have h0 : (twistVar q).leadingCoeff ≠ 0 := leadingCoeff_ne_zero.2 (twistVar_ne_zero hq)
  rw [leadingCoeff, twistVar_coeff] at h0 ⊢
  split_ifs at h0 ⊢ with h
  · rw [map_mul, map_pow, atPoint_C, atPoint_X]
    refine mul_ne_zero ?_ (pow_ne_zero _ hc)
    have := (mul_ne_zero_iff.1 h0).1
    rw [Ne, C_eq_zero] at this
    exact_mod_cast this
  · exact absurd rfl h0

theorem prod_resultant_at' {p q : ℤ[X]} (hq : q ≠ 0) (c : ℂ) (hc0 : c ≠ 0)
    (hc : ∀ y y', (p.map (Int.castRingHom ℂ)).eval y = 0 → (q.map (Int.castRingHom ℂ)).eval y' = 0 → c ≠ y * y') :
    atPoint c ((p.map C).resultant (twistVar q)) ≠ 0 ∧ atPoint c ((twistVar q).resultant (p.map C)) ≠ 0 := by
  have h1 : ((p.map C).map (atPoint c)).natDegree = (p.map C : ℤ[X][X]).natDegree := by
    rw [map_atPoint_C, natDegree_map_eq_of_injective castC_inj, natDegree_map_eq_of_injective C_injective]
  have h2 := twistVar_natDegree_map hq hc0
  have h3 : ∀ y : ℂ, ((p.map C).map (atPoint c)).eval y = 0 → ((twistVar q).map (atPoint c)).eval y ≠ 0 := by
    intro y hy hy'
    rw [map_atPoint_C] at hy
    by_cases hy0 : y = 0
    · subst hy0
      rw [twistVar_eval, Finset.sum_eq_single q.natDegree] at hy'
      · rw [Nat.sub_self, pow_zero, mul_one] at hy'
        rcases mul_eq_zero.1 hy' with e | e
        · exact hq (leadingCoeff_eq_zero.1 (by exact_mod_cast e))
        · exact pow_ne_zero _ hc0 e
      · intro i hi hne
        rw [Finset.mem_range] at hi
        rw [zero_pow (by omega), mul_zero]
      · intro hn; exact absurd (Finset.mem_range.2 (by omega)) hn
    · have e := twistVar_eval_mul q y (c / y)
      rw [mul_div_cancel₀ _ hy0, hy'] at e
      rcases mul_eq_zero.1 e.symm with e | e
      · exact pow_ne_zero _ hy0 e
      · exact hc y (c / y) hy e (by rw [mul_div_cancel₀ _ hy0])
  exact ⟨resultant_at_ne_zero c h1 h2 h3, resultant_at_ne_zero c h2 h1 fun y a b => h3 y b a⟩

/-- The resultant for the products: not zero, for either order of the two polynomials. -/
theorem prod_resultant_ne_zero {p q : ℤ[X]} (hp : p ≠ 0) (hq : q ≠ 0) :
    (p.map C).resultant (twistVar q) ≠ 0 ∧ (twistVar q).resultant (p.map C) ≠ 0 := by
  obtain ⟨c, hc0, hc⟩ := exists_not_prod (p.map (Int.castRingHom ℂ)).roots.toFinset (q.map (Int.castRingHom ℂ)).roots.toFinset
  obtain ⟨h1, h2⟩ := prod_resultant_at' (p := p) hq c hc0 fun y y' hy hy' => hc y (mem_rootsC hp hy) y' (mem_rootsC hq hy')
  exact ⟨fun e => h1 (by rw [e, map_zero]), fun e => h2 (by rw [e, map_zero])⟩

theorem exists_rootC {p : ℤ[X]} (h : p.natDegree ≠ 0) : ∃ y : ℂ, (p.map (Int.castRingHom ℂ)).eval y = 0 := by
  refine Complex.exists_root ?_
  rw [← natDegree_pos_iff_degree_pos, natDegree_map_eq_of_injective castC_inj]
  omega

/-- The resultant for the products is zero only at products of roots. -/
theorem prod_resultant_at {p q : ℤ[X]} (hp : p ≠ 0) (hq : q ≠ 0) (c : ℂ)
    (hc : ∀ y y', (p.map (Int.castRingHom ℂ)).eval y = 0 → (q.map (Int.castRingHom ℂ)).eval y' = 0 → c ≠ y * y') :
    atPoint c ((p.map C).resultant (twistVar q)) ≠ 0 ∧ atPoint c ((twistVar q).resultant (p.map C)) ≠ 0 := by
  by_cases hc0 : c = 0
  swap
  · exact prod_resultant_at' hq c hc0 hc
  subst hc0
  by_cases hq0 : q.coeff 0 = 0
  · have hroot : (q.map (Int.castRingHom ℂ)).eval 0 = 0 := by
      rw [← coeff_zero_eq_eval_zero, coeff_map, hq0, map_zero]
    have hd : p.natDegree = 0 := by
      by_contra hd
      obtain ⟨y, hy⟩ := exists_rootC hd
      exact hc y 0 hy hroot (by simp)
    have hd' : (p.map C : ℤ[X][X]).natDegree = 0 := by rw [natDegree_map_eq_of_injective C_injective, hd]
    have hne : atPoint (0 : ℂ) ((p.map C : ℤ[X][X]).coeff 0) ≠ 0 := by
      rw [coeff_map, atPoint_C]
      intro e
      apply hp
      rw [eq_C_of_natDegree_eq_zero hd, show p.coeff 0 = 0 by exact_mod_cast e, C_0]
    constructor
    · rw [hd', resultant_zero_left_deg, map_pow]
      exact pow_ne_zero _ hne
    · rw [hd', resultant_zero_right_deg, map_pow]
      exact pow_ne_zero _ hne
  · have h1 : ((p.map C).map (atPoint (0 : ℂ))).natDegree = (p.map C : ℤ[X][X]).natDegree := by
      rw [map_atPoint_C, natDegree_map_eq_of_injective castC_inj, natDegree_map_eq_of_injective C_injective]
    have hdeg : (twistVar q).natDegree = q.natDegree := by
      refine natDegree_eq_of_le_of_coeff_ne_zero ?_ ?_
      · rw [natDegree_le_iff_coeff_eq_zero]
        intro N hN
        rw [twistVar_coeff, if_neg (by omega)]
      · rw [twistVar_coeff, if_pos (le_refl _), Nat.sub_self, pow_zero, mul_one, Ne, C_eq_zero]; exact hq0
    have h2 : ((twistVar q).map (atPoint (0 : ℂ))).natDegree = (twistVar q).natDegree := by
      refine natDegree_map_of_leadingCoeff_ne_zero _ ?_
      rw [leadingCoeff, hdeg, twistVar_coeff, if_pos (le_refl _), Nat.sub_self, pow_zero, mul_one, atPoint_C]
      exact_mod_cast hq0
    have h3 : ∀ y : ℂ, ((p.map C).map (atPoint (0 : ℂ))).eval y = 0 → ((twistVar q).map (atPoint (0 : ℂ))).eval y ≠ 0 := by
      intro y hy hy'
      rw [map_atPoint_C] at hy
      rw [twistVar_eval, Finset.sum_eq_single 0] at hy'
      · rw [pow_zero, mul_one, Nat.sub_zero] at hy'
        rcases mul_eq_zero.1 hy' with e | e
        · exact hq0 (by exact_mod_cast e)
        · have hn : q.natDegree ≠ 0 := by rintro h0; rw [h0, pow_zero] at e; exact one_ne_zero e
          obtain ⟨z, hz⟩ := exists_rootC hn
          exact hc y z hy hz (by rw [eq_zero_of_pow_eq_zero e, zero_mul])
      · intro i hi hne
        rw [zero_pow hne, mul_zero, zero_mul]
      · intro hn; exact absurd (Finset.mem_range.2 (by omega)) hn
    exact ⟨resultant_at_ne_zero 0 h1 h2 h3, resultant_at_ne_zero 0 h2 h1 fun y a b => h3 y b a⟩

end Verif.Rings
