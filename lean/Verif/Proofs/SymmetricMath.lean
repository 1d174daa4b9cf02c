import Verif.Spec.Symmetric
import Mathlib.RingTheory.MvPolynomial.Homogeneous
import Mathlib.Algebra.MvPolynomial.Division
import Mathlib.Algebra.MvPolynomial.NoZeroDivisors

/-!
# The argument behind the fundamental theorem of symmetric polynomials
-/

namespace Verif.Rings

open MvPolynomial

section
variable {R : Type} [CommSemiring R]

theorem esymm_cons {A : Type} [CommSemiring A] (a : A) (s : Multiset A) (k : ℕ) :
    (a ::ₘ s).esymm (k + 1) = s.esymm (k + 1) + a * s.esymm k := by
  simp only [Multiset.esymm, Multiset.powersetCard_cons, Multiset.map_add, Multiset.sum_add, Multiset.map_map, Function.comp_def,
    Multiset.prod_cons]
  rw [Multiset.sum_map_mul_left]

theorem esymm_zero' {A : Type} [CommSemiring A] (s : Multiset A) : s.esymm 0 = 1 := by
  simp [Multiset.esymm]

theorem esymm_map {A B : Type} [CommSemiring A] [CommSemiring B] (f : A →+* B) (s : Multiset A) (k : ℕ) :
    f (s.esymm k) = (s.map f).esymm k := by
  induction s using Multiset.induction generalizing k with
  | empty => cases k with
    | zero => simp [esymm_zero']
    | succ k => simp [Multiset.esymm, Multiset.powersetCard_zero_right]
  | cons a s ih => cases k with
    | zero => simp [esymm_zero']
    | succ k => rw [Multiset.map_cons, esymm_cons, esymm_cons, map_add, map_mul, ih, ih]

theorem esymIn_cons (k x : ℕ) (vars : List ℕ) :
    esymIn R (k + 1) (x :: vars) = esymIn R (k + 1) vars + X x * esymIn R k vars := by
  simp only [esymIn, List.map_cons, ← Multiset.cons_coe, esymm_cons]

theorem esymIn_zero (vars : List ℕ) : esymIn R 0 vars = 1 := esymm_zero' _

theorem esymIn_nil (k : ℕ) : esymIn R (k + 1) [] = 0 := by simp [esymIn, Multiset.esymm, Multiset.powersetCard_zero_right]

theorem esymIn_perm {vars vars' : List ℕ} (h : vars.Perm vars') (k : ℕ) : esymIn R k vars = esymIn R k vars' := by
  unfold esymIn
  rw [Multiset.coe_eq_coe.2 (h.map _)]

theorem esymIn_homogeneous (k : ℕ) (vars : List ℕ) : (esymIn R k vars).IsHomogeneous k := by
  induction vars generalizing k with
  | nil => cases k with
    | zero => rw [esymIn_zero]; exact isHomogeneous_one _ _
    | succ k => rw [esymIn_nil]; exact isHomogeneous_zero _ _ _
  | cons x vars ih => cases k with
    | zero => rw [esymIn_zero]; exact isHomogeneous_one _ _
    | succ k =>
      rw [esymIn_cons]
      refine (ih (k + 1)).add ?_
      have := (isHomogeneous_X R x).mul (ih k)
      rwa [add_comm] at this

theorem esymIn_gt (k : ℕ) (vars : List ℕ) (h : vars.length < k) : esymIn R k vars = 0 := by
  induction vars generalizing k with
  | nil => cases k with
    | zero => simp at h
    | succ k => exact esymIn_nil k
  | cons x vars ih => cases k with
    | zero => simp at h
    | succ k =>
      rw [List.length_cons] at h
      rw [esymIn_cons, ih _ (by omega), ih _ (by omega), mul_zero, add_zero]

theorem esymIn_length (vars : List ℕ) : esymIn R vars.length vars = (vars.map X).prod := by
  induction vars with
  | nil => simp [esymIn_zero]
  | cons x vars ih =>
    rw [List.length_cons, esymIn_cons, esymIn_gt _ _ (by omega), ih, zero_add, List.map_cons, List.prod_cons]

theorem map_esymIn {B : Type} [CommSemiring B] (f : MvPolynomial ℕ R →+* B) (k : ℕ) (vars : List ℕ) :
    f (esymIn R k vars) = ((vars.map fun x => f (X x) : List B) : Multiset B).esymm k := by
  rw [esymIn, esymm_map, Multiset.map_coe, List.map_map]; rfl

theorem rename_esymIn (σ : ℕ → ℕ) (k : ℕ) (vars : List ℕ) : rename σ (esymIn R k vars) = esymIn R k (vars.map σ) := by
  have := map_esymIn (rename σ : MvPolynomial ℕ R →ₐ[R] MvPolynomial ℕ R).toRingHom k vars
  refine this.trans ?_
  simp [esymIn, Function.comp_def]

/-- A permutation that moves only the given variables permutes their list. -/
theorem map_perm_vars {vars : List ℕ} (hn : vars.Nodup) {σ : Equiv.Perm ℕ} (hσ : ∀ x, x ∉ vars → σ x = x) :
    (vars.map σ).Perm vars := by
  have hin : ∀ x ∈ vars, σ x ∈ vars := by
    intro x hx
    by_contra hn
    have := hσ _ hn
    exact hn ((σ.injective this).symm ▸ hx)
  rw [List.perm_ext_iff_of_nodup (hn.map σ.injective) hn]
  intro y
  constructor
  · intro h
    obtain ⟨x, hx, rfl⟩ := List.mem_map.1 h
    exact hin x hx
  · intro hy
    refine List.mem_map.2 ⟨σ.symm y, ?_, by simp⟩
    by_contra hn
    have := hσ _ hn
    rw [Equiv.apply_symm_apply] at this
    exact hn (this ▸ hy)

theorem esymIn_symmetric {vars : List ℕ} (hn : vars.Nodup) (k : ℕ) : SymmetricIn vars (esymIn R k vars) := by
  constructor
  · have : esymIn R k vars ∈ supported R {x | x ∈ vars} := by
      induction vars generalizing k with
      | nil => cases k with
        | zero => rw [esymIn_zero]; exact one_mem _
        | succ k => rw [esymIn_nil]; exact zero_mem _
      | cons x vars ih => cases k with
        | zero => rw [esymIn_zero]; exact one_mem _
        | succ k =>
          have hs : supported R {y | y ∈ vars} ≤ supported R {y | y ∈ x :: vars} :=
            supported_mono fun y hy => List.mem_cons_of_mem _ hy
          rw [esymIn_cons]
          refine add_mem (hs (ih hn.of_cons _)) (mul_mem (Algebra.subset_adjoin ⟨x, List.mem_cons_self, rfl⟩) (hs (ih hn.of_cons _)))
    intro x hx
    exact mem_supported.1 this hx
  · intro σ hσ
    rw [rename_esymIn, esymIn_perm (map_perm_vars hn hσ)]

/-- Setting one of the variables to zero leaves the elementary symmetric polynomial in the others. -/
theorem setZero_esymIn {first : List ℕ} {x : ℕ} (hx : x ∉ first) (k : ℕ) :
    aeval (fun i => if i = x then (0 : MvPolynomial ℕ R) else X i) (esymIn R (k + 1) (first ++ [x])) = esymIn R (k + 1) first := by
  rw [esymIn_perm (List.perm_append_singleton x first)]
  have := map_esymIn (aeval (R := R) (fun i => if i = x then (0 : MvPolynomial ℕ R) else X i)).toRingHom (k + 1) (x :: first)
  refine this.trans ?_
  rw [List.map_cons, ← Multiset.cons_coe, esymm_cons]
  simp only [AlgHom.toRingHom_eq_coe, RingHom.coe_coe, aeval_X, if_true, zero_mul, add_zero, esymIn]
  congr 2
  apply List.map_congr_left
  intro y hy
  rw [if_neg]
  rintro rfl
  exact hx hy

theorem SymmetricIn.mem {vars : List ℕ} {P : MvPolynomial ℕ R} (h : SymmetricIn vars P) : P ∈ supported R {x | x ∈ vars} :=
  mem_supported.2 fun x hx => h.1 x hx

theorem SymmetricIn.mk' {vars : List ℕ} {P : MvPolynomial ℕ R} (h : P ∈ supported R {x | x ∈ vars})
    (h' : ∀ σ : Equiv.Perm ℕ, (∀ x, x ∉ vars → σ x = x) → rename σ P = P) : SymmetricIn vars P :=
  ⟨fun _ hx => mem_supported.1 h hx, h'⟩

theorem SymmetricIn.const (vars : List ℕ) (c : R) : SymmetricIn vars (C c) :=
  .mk' (by rw [← algebraMap_eq]; exact Subalgebra.algebraMap_mem _ c) fun σ _ => rename_C σ c

theorem SymmetricIn.add {vars : List ℕ} {P Q : MvPolynomial ℕ R} (h : SymmetricIn vars P) (h' : SymmetricIn vars Q) :
    SymmetricIn vars (P + Q) :=
  .mk' (add_mem h.mem h'.mem) fun σ hσ => by rw [map_add, h.2 σ hσ, h'.2 σ hσ]

theorem SymmetricIn.mul {vars : List ℕ} {P Q : MvPolynomial ℕ R} (h : SymmetricIn vars P) (h' : SymmetricIn vars Q) :
    SymmetricIn vars (P * Q) :=
  .mk' (mul_mem h.mem h'.mem) fun σ hσ => by rw [map_mul, h.2 σ hσ, h'.2 σ hσ]

theorem esymSubst_symmetric {vars : List ℕ} (hn : vars.Nodup) (e : List ℕ) (G : MvPolynomial ℕ R) :
    SymmetricIn vars (aeval (esymSubst R e vars) G) := by
  induction G using MvPolynomial.induction_on with
  | C c => rw [aeval_C]; exact SymmetricIn.const vars c
  | add P Q hP hQ => rw [map_add]; exact hP.add hQ
  | mul_X P x hP =>
    rw [map_mul, aeval_X]
    refine hP.mul ?_
    unfold esymSubst
    split_ifs
    · exact esymIn_symmetric hn _
    · rw [← C_0]; exact SymmetricIn.const vars 0

/-- Setting the last variable to zero in the substituted polynomial. -/
theorem setZero_esymSubst {first : List ℕ} {x : ℕ} (hx : x ∉ first) (e : List ℕ) (G : MvPolynomial ℕ R) :
    aeval (fun i => if i = x then (0 : MvPolynomial ℕ R) else X i) (aeval (esymSubst R e (first ++ [x])) G) =
      aeval (esymSubst R e first) G := by
  induction G using MvPolynomial.induction_on with
  | C c => simp only [aeval_C, AlgHom.commutes]
  | add P Q hP hQ => rw [map_add, map_add, map_add, hP, hQ]
  | mul_X P y hP =>
    rw [map_mul, map_mul, map_mul, hP, aeval_X, aeval_X]
    congr 1
    unfold esymSubst
    split_ifs
    · exact setZero_esymIn hx _
    · exact map_zero _

theorem rename_setZero (σ : Equiv.Perm ℕ) {x : ℕ} (hσ : σ x = x) (P : MvPolynomial ℕ R) :
    rename σ (aeval (fun i => if i = x then (0 : MvPolynomial ℕ R) else X i) P) =
      aeval (fun i => if i = x then (0 : MvPolynomial ℕ R) else X i) (rename σ P) := by
  induction P using MvPolynomial.induction_on with
  | C c => rw [aeval_C, rename_C, aeval_C, algebraMap_eq, rename_C]
  | add P Q hP hQ => rw [map_add, map_add, map_add, map_add, hP, hQ]
  | mul_X P y hP =>
    rw [map_mul, map_mul, map_mul, map_mul, hP, aeval_X, rename_X, aeval_X]
    congr 1
    by_cases hy : y = x
    · rw [if_pos hy, hy, if_pos hσ, map_zero]
    · rw [if_neg hy, rename_X, if_neg]
      intro h
      exact hy (σ.injective (h.trans hσ.symm))

theorem SymmetricIn.setZero {first : List ℕ} {x : ℕ} (hx : x ∉ first) {P : MvPolynomial ℕ R} (h : SymmetricIn (first ++ [x]) P) :
    SymmetricIn first (aeval (fun i => if i = x then (0 : MvPolynomial ℕ R) else X i) P) := by
  refine .mk' ?_ fun σ hσ => ?_
  · have : ∀ Q ∈ supported R {y | y ∈ first ++ [x]},
        aeval (fun i => if i = x then (0 : MvPolynomial ℕ R) else X i) Q ∈ supported R {y | y ∈ first} := by
      intro Q hQ
      refine Algebra.adjoin_induction (p := fun Q _ => aeval (fun i => if i = x then (0 : MvPolynomial ℕ R) else X i) Q ∈
        supported R {y | y ∈ first}) ?_ ?_ ?_ ?_ hQ
      · rintro _ ⟨y, hy, rfl⟩
        rw [aeval_X]
        split_ifs with h
        · exact zero_mem _
        · refine Algebra.subset_adjoin ⟨y, ?_, rfl⟩
          simpa [h] using hy
      · intro c; rw [AlgHom.commutes]; exact Subalgebra.algebraMap_mem _ c
      · intro P Q _ _ hP hQ; rw [map_add]; exact add_mem hP hQ
      · intro P Q _ _ hP hQ; rw [map_mul]; exact mul_mem hP hQ
    exact this P h.mem
  · rw [rename_setZero σ (hσ x hx), h.2 σ]
    intro y hy
    exact hσ y fun h => hy (List.mem_append_left _ h)

theorem coeff_setZero (x : ℕ) (P : MvPolynomial ℕ R) {s : ℕ →₀ ℕ} (hs : s x = 0) :
    coeff s (aeval (fun i => if i = x then (0 : MvPolynomial ℕ R) else X i) P) = coeff s P := by
  induction P using MvPolynomial.induction_on' with
  | monomial u c =>
    rw [aeval_monomial, algebraMap_eq, coeff_C_mul, coeff_monomial]
    by_cases hu : u x = 0
    · have : (u.prod fun i k => (if i = x then (0 : MvPolynomial ℕ R) else X i) ^ k) = monomial u 1 := by
        rw [monomial_eq, C_1, one_mul]
        apply Finsupp.prod_congr
        intro y hy
        rw [if_neg]
        rintro rfl
        exact Finsupp.mem_support_iff.1 hy hu
      rw [this, coeff_monomial]
      split_ifs <;> simp
    · have : (u.prod fun i k => (if i = x then (0 : MvPolynomial ℕ R) else X i) ^ k) = 0 := by
        rw [Finsupp.prod]
        apply Finset.prod_eq_zero (Finsupp.mem_support_iff.2 hu)
        rw [if_pos rfl, zero_pow hu]
      rw [this, coeff_zero, mul_zero, if_neg]
      rintro rfl
      exact hu hs
  | add P Q hP hQ => rw [map_add, coeff_add, coeff_add, hP, hQ]

theorem prod_vars_eq (vars : List ℕ) :
    (vars.map X : List (MvPolynomial ℕ R)).prod = monomial (vars.map fun x => Finsupp.single x 1).sum 1 := by
  induction vars with
  | nil => rfl
  | cons x vars ih =>
    rw [List.map_cons, List.prod_cons, ih, List.map_cons, List.sum_cons, X, monomial_mul, one_mul]

theorem single_sum_le {vars : List ℕ} (hn : vars.Nodup) {s : ℕ →₀ ℕ} (h : ∀ x ∈ vars, s x ≠ 0) :
    (vars.map fun x => Finsupp.single x 1).sum ≤ s := by
  intro y
  have : ∀ l : List ℕ, l.Nodup → (l.map fun x => Finsupp.single x 1).sum y = if y ∈ l then 1 else 0 := by
    intro l
    induction l with
    | nil => intro _; simp
    | cons x l ih =>
      intro hl
      rw [List.map_cons, List.sum_cons, Finsupp.add_apply, ih hl.of_cons, Finsupp.single_apply]
      have := (List.nodup_cons.1 hl).1
      by_cases hxy : x = y
      · subst hxy; simp [this]
      · simp [hxy, Ne.symm hxy]
  rw [this vars hn]
  split_ifs with hy
  · exact Nat.one_le_iff_ne_zero.2 (h y hy)
  · exact Nat.zero_le _

/-- A symmetric polynomial that vanishes when one variable is set to zero is a multiple of the product of the variables. -/
theorem SymmetricIn.prod_dvd {first : List ℕ} {x : ℕ} (hn : (first ++ [x]).Nodup) {Q : MvPolynomial ℕ R}
    (h : SymmetricIn (first ++ [x]) Q) (h0 : aeval (fun i => if i = x then (0 : MvPolynomial ℕ R) else X i) Q = 0) :
    ((first ++ [x]).map X).prod ∣ Q := by
  rw [prod_vars_eq, monomial_one_dvd_iff_modMonomial_eq_zero]
  have hlast : ∀ s, coeff s Q ≠ 0 → s x ≠ 0 := by
    intro s hs hx
    rw [← coeff_setZero x Q hx, h0, coeff_zero] at hs
    exact hs rfl
  have hall : ∀ s, coeff s Q ≠ 0 → ∀ y ∈ first ++ [x], s y ≠ 0 := by
    intro s hs y hy
    have hσ := h.2 (Equiv.swap y x) (fun z hz => Equiv.swap_apply_of_ne_of_ne (fun h => hz (h ▸ hy))
      (fun h => hz (h ▸ by simp)))
    have h1 : coeff (s.mapDomain (Equiv.swap y x)) Q ≠ 0 := by
      rw [← hσ, coeff_rename_mapDomain _ (Equiv.swap y x).injective]
      exact hs
    have h2 := hlast _ h1
    have h3 : s.mapDomain (Equiv.swap y x) x = s y := by
      have := Finsupp.mapDomain_apply (Equiv.swap y x).injective s y
      rwa [Equiv.swap_apply_left] at this
    rwa [h3] at h2
  ext s
  rw [coeff_zero]
  by_cases hle : ((first ++ [x]).map fun x => Finsupp.single x 1).sum ≤ s
  · rw [coeff_modMonomial_of_le _ hle]
  · rw [coeff_modMonomial_of_not_le _ hle]
    by_contra hs
    exact hle (single_sum_le hn (hall s hs))

end

section Ring
variable {R : Type} [CommRing R]

theorem SymmetricIn.sub {vars : List ℕ} {P Q : MvPolynomial ℕ R} (h : SymmetricIn vars P) (h' : SymmetricIn vars Q) :
    SymmetricIn vars (P - Q) :=
  .mk' (sub_mem h.mem h'.mem) fun σ hσ => by rw [map_sub, h.2 σ hσ, h'.2 σ hσ]

/-- The quotient of a symmetric polynomial by the product of the variables is symmetric. -/
theorem SymmetricIn.quotient [IsDomain R] {vars : List ℕ} (hn : vars.Nodup) {P Q : MvPolynomial ℕ R} (h : SymmetricIn vars P)
    (hQ : P = Q * (vars.map X).prod) : SymmetricIn vars Q := by
  have hne : (vars.map X : List (MvPolynomial ℕ R)).prod ≠ 0 := by
    rw [prod_vars_eq, Ne, monomial_eq_zero]
    exact one_ne_zero
  constructor
  · by_cases hQ0 : Q = 0
    · rw [hQ0, vars_0]; simp
    · intro x hx
      refine h.1 x ?_
      obtain ⟨s, hs, hxs⟩ := mem_vars x |>.1 hx
      refine mem_vars x |>.2 ⟨s + (vars.map fun x => Finsupp.single x 1).sum, ?_, ?_⟩
      · rw [mem_support_iff, hQ, prod_vars_eq, coeff_mul_monomial, mul_one]
        exact mem_support_iff.1 hs
      · rw [Finsupp.mem_support_iff] at hxs ⊢
        rw [Finsupp.add_apply]
        omega
  · intro σ hσ
    have h1 := h.2 σ hσ
    have h2 := (esymIn_symmetric (R := R) hn vars.length).2 σ hσ
    rw [esymIn_length] at h2
    rw [hQ, map_mul, h2] at h1
    exact mul_right_cancel₀ hne h1

theorem homogeneous_quotient {vars : List ℕ} {P Q : MvPolynomial ℕ R} {d : ℕ} (h : P.IsHomogeneous (vars.length + d))
    (hQ : P = Q * (vars.map X).prod) : Q.IsHomogeneous d := by
  intro s hs
  have h1 : coeff (s + (vars.map fun x => Finsupp.single x 1).sum) P ≠ 0 := by
    rw [hQ, prod_vars_eq, coeff_mul_monomial, mul_one]; exact hs
  have h2 := h h1
  have h3 : ∀ l : List ℕ, (l.map fun x => Finsupp.single x 1).sum.degree = l.length := by
    intro l
    induction l with
    | nil => simp
    | cons x l ih => rw [List.map_cons, List.sum_cons, map_add, ih, Finsupp.degree_single, List.length_cons, add_comm]
  have hw : ∀ u : ℕ →₀ ℕ, Finsupp.weight (1 : ℕ → ℕ) u = u.degree := fun u => (DFunLike.congr_fun Finsupp.degree_eq_weight_one u).symm
  rw [hw] at h2 ⊢
  rw [map_add, h3] at h2
  omega

end Ring

end Verif.Rings
