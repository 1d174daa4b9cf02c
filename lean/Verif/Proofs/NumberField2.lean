import Mathlib.RingTheory.Discriminant
import Mathlib.RingTheory.Norm.Basic
import Mathlib.RingTheory.Polynomial.RationalRoot
import Mathlib.LinearAlgebra.Matrix.Adjugate
import Mathlib.LinearAlgebra.Matrix.NonsingularInverse
import Mathlib.Data.Rat.Lemmas
import Mathlib.Data.Nat.Prime.Basic

/-! Full lattices of algebraic integers: why the search for an integral basis is right. -/

namespace Verif.Anf

attribute [-instance] Rat.smulDivisionRing Rat.instDistribSMul

section
variable {K : Type} [CommRing K] [Algebra ℚ K] {n : Nat}

/-- the integer combinations of a family -/
def Combo (a : Fin n → K) (x : K) : Prop := ∃ c : Fin n → ℤ, x = ∑ i, (c i : ℚ) • a i

theorem Combo.self (a : Fin n → K) (i : Fin n) : Combo a (a i) := by
  refine ⟨Pi.single i 1, ?_⟩
  rw [Finset.sum_eq_single i]
  · simp
  · intro j _ hj; simp [hj]
  · simp

theorem Combo.zero (a : Fin n → K) : Combo a 0 := ⟨0, by simp⟩

theorem Combo.add {a : Fin n → K} {x y : K} (hx : Combo a x) (hy : Combo a y) : Combo a (x + y) := by
  obtain ⟨c, rfl⟩ := hx
  obtain ⟨d, rfl⟩ := hy
  refine ⟨c + d, ?_⟩
  rw [← Finset.sum_add_distrib]
  refine Finset.sum_congr rfl fun i _ => ?_
  simp [add_smul]

theorem Combo.zsmul {a : Fin n → K} {x : K} (z : ℤ) (hx : Combo a x) : Combo a ((z : ℚ) • x) := by
  obtain ⟨c, rfl⟩ := hx
  refine ⟨fun i => z * c i, ?_⟩
  rw [Finset.smul_sum]
  refine Finset.sum_congr rfl fun i _ => ?_
  rw [smul_smul]
  push_cast
  rfl

theorem Combo.sum {ι : Type} (s : Finset ι) {a : Fin n → K} {g : ι → K} (h : ∀ i ∈ s, Combo a (g i)) : Combo a (∑ i ∈ s, g i) := by
  classical
  induction s using Finset.induction_on with
  | empty => simpa using Combo.zero a
  | insert x s hx ih =>
    rw [Finset.sum_insert hx]
    exact (h x (Finset.mem_insert_self _ _)).add (ih fun i hi => h i (Finset.mem_insert_of_mem hi))

theorem Combo.trans {m : Nat} {a : Fin n → K} {b : Fin m → K} {x : K} (h : ∀ i, Combo b (a i)) (hx : Combo a x) : Combo b x := by
  obtain ⟨c, rfl⟩ := hx
  exact Combo.sum _ fun i _ => (h i).zsmul _

theorem integral_smul (z : ℤ) {x : K} (hx : IsIntegral ℤ x) : IsIntegral ℤ ((z : ℚ) • x) := by
  rw [Int.cast_smul_eq_zsmul]
  exact hx.smul z

theorem Combo.integral {a : Fin n → K} (ha : ∀ i, IsIntegral ℤ (a i)) {x : K} (hx : Combo a x) : IsIntegral ℤ x := by
  obtain ⟨c, rfl⟩ := hx
  exact IsIntegral.sum _ fun i _ => integral_smul _ (ha i)

end

section
variable {K : Type} [Field K] [Algebra ℚ K] [Module.Finite ℚ K] {n : Nat}

theorem li_of_discr {a : Fin n → K} (h : Algebra.discr ℚ a ≠ 0) : LinearIndependent ℚ a := by
  by_contra hc
  exact h (Algebra.discr_zero_of_not_linearIndependent ℚ hc)

omit [Module.Finite ℚ K] in
theorem int_of_integral {q : ℚ} (h : IsIntegral ℤ q) : ∃ z : ℤ, (z : ℚ) = q := IsIntegrallyClosed.isIntegral_iff.1 h

theorem discr_int {a : Fin n → K} (ha : ∀ i, IsIntegral ℤ (a i)) : ∃ d : ℤ, (d : ℚ) = Algebra.discr ℚ a :=
  int_of_integral (Algebra.discr_isIntegral ℚ ha)

/-- an algebraic integer outside the lattice gives one with a prime denominator -/
theorem exists_prime_of_not_combo {a : Fin n → K} (hli : LinearIndependent ℚ a) (hc : Module.finrank ℚ K = n)
    (ha : ∀ i, IsIntegral ℤ (a i)) {β : K} (hβ : IsIntegral ℤ β) (hns : ¬ Combo a β) :
    ∃ p : ℕ, p.Prime ∧ ∃ x : Fin n → ℕ, (∀ i, x i < p) ∧ (∃ i, x i ≠ 0) ∧ IsIntegral ℤ ((p : ℚ)⁻¹ • ∑ i, (x i : ℚ) • a i) := by
  classical
  have hspan : β ∈ Submodule.span ℚ (Set.range a) := by
    rw [hli.span_eq_top_of_card_eq_finrank' (by simp [hc])]
    trivial
  obtain ⟨q, hq⟩ := (Submodule.mem_span_range_iff_exists_fun ℚ).1 hspan
  have hex : ∃ N : ℕ, 0 < N ∧ ∀ i, ∃ z : ℤ, (z : ℚ) = N * q i := by
    refine ⟨∏ i, (q i).den, Finset.prod_pos fun i _ => (q i).pos, fun i => ?_⟩
    refine ⟨(∏ j ∈ Finset.univ.erase i, ((q j).den : ℤ)) * (q i).num, ?_⟩
    rw [← Finset.mul_prod_erase _ _ (Finset.mem_univ i)]
    push_cast
    rw [← Rat.mul_den_eq_num]
    ring
  obtain ⟨hN0, hN⟩ := Nat.find_spec hex
  have hmin := fun {m} => Nat.find_min hex (m := m)
  generalize Nat.find hex = N at *
  have hN1 : N ≠ 1 := by
    rintro rfl
    choose z hz using hN
    exact hns ⟨z, by rw [← hq]; exact Finset.sum_congr rfl fun i _ => by rw [hz i]; simp⟩
  have hp := Nat.minFac_prime hN1
  obtain ⟨M, hM⟩ := Nat.minFac_dvd N
  generalize N.minFac = p at *
  choose y hy using hN
  have hp0 : (p : ℚ) ≠ 0 := by exact_mod_cast hp.ne_zero
  have hpz : (p : ℤ) ≠ 0 := by exact_mod_cast hp.ne_zero
  have hM0 : 0 < M := Nat.pos_of_ne_zero (by rintro rfl; simp at hM; omega)
  have hMlt : M < N := by rw [hM]; exact lt_mul_of_one_lt_left hM0 hp.one_lt
  have hyM : ∀ i, (M : ℚ) * q i = (y i : ℚ) / p := by
    intro i
    rw [hy i, hM]
    push_cast
    field_simp
  refine ⟨p, hp, fun i => (y i % p).toNat, fun i => ?_, ?_, ?_⟩
  · have h1 := Int.emod_nonneg (y i) hpz
    have h2 := Int.emod_lt_of_pos (y i) (by exact_mod_cast hp.pos : (0 : ℤ) < p)
    change (y i % p).toNat < p
    omega
  · by_contra hall
    push Not at hall
    refine hmin hMlt ⟨hM0, fun i => ?_⟩
    have h1 := Int.emod_nonneg (y i) hpz
    have h2 : y i % p = 0 := by have := hall i; omega
    obtain ⟨k, hk⟩ := Int.dvd_of_emod_eq_zero h2
    refine ⟨k, ?_⟩
    rw [hyM, hk]
    push_cast
    field_simp
  · have hx : ∀ i, (((y i % p).toNat : ℕ) : ℚ) = y i - p * ((y i / p : ℤ) : ℚ) := by
      intro i
      have h1 := Int.emod_nonneg (y i) hpz
      have h2 : (((y i % p).toNat : ℕ) : ℤ) = y i - p * (y i / p) := by
        rw [Int.toNat_of_nonneg h1, Int.emod_def]
      have h3 : ((((y i % p).toNat : ℕ) : ℤ) : ℚ) = ((y i - p * (y i / p) : ℤ) : ℚ) := by rw [h2]
      push_cast at h3
      exact h3
    have : (p : ℚ)⁻¹ • ∑ i, (((y i % p).toNat : ℕ) : ℚ) • a i = ((M : ℤ) : ℚ) • β - ∑ i, ((y i / p : ℤ) : ℚ) • a i := by
      rw [← hq, Finset.smul_sum, Finset.smul_sum, ← Finset.sum_sub_distrib]
      refine Finset.sum_congr rfl fun i _ => ?_
      rw [smul_smul, smul_smul, ← sub_smul, hx i]
      congr 1
      rw [Int.cast_natCast, hyM]
      field_simp
    rw [this]
    exact (integral_smul _ hβ).sub (IsIntegral.sum _ fun i _ => integral_smul _ (ha i))

/-- then the square of the prime divides the discriminant -/
theorem sq_dvd_discr {a : Fin n → K} (ha : ∀ i, IsIntegral ℤ (a i)) {p : ℕ} (hp : p.Prime) {x : Fin n → ℕ} (hx : ∀ i, x i < p)
    (h0 : ∃ i, x i ≠ 0) (hint : IsIntegral ℤ ((p : ℚ)⁻¹ • ∑ i, (x i : ℚ) • a i)) {d : ℤ} (hd : (d : ℚ) = Algebra.discr ℚ a) :
    (p : ℤ) ^ 2 ∣ d := by
  classical
  obtain ⟨i, hi⟩ := h0
  have hp0 : (p : ℚ) ≠ 0 := by exact_mod_cast hp.ne_zero
  let P : Matrix (Fin n) (Fin n) ℚ := Matrix.updateCol 1 i fun j => (x j : ℚ) / p
  have hdet : P.det = (x i : ℚ) / p := by
    rw [← Matrix.cramer_apply, Matrix.cramer_one]
    rfl
  have hP : ∀ j, Matrix.vecMul a (P.map (algebraMap ℚ K)) j = if j = i then (p : ℚ)⁻¹ • ∑ i, (x i : ℚ) • a i else a j := by
    intro j
    rw [Matrix.vecMul, dotProduct]
    split
    · rename_i h
      subst h
      rw [Finset.smul_sum]
      refine Finset.sum_congr rfl fun k _ => ?_
      rw [Matrix.map_apply, show P = Matrix.updateCol 1 j _ from rfl, Matrix.updateCol_self, smul_smul, Algebra.smul_def, mul_comm, div_eq_mul_inv, mul_comm (x k : ℚ)]
    · rename_i h
      rw [Finset.sum_eq_single j]
      · rw [Matrix.map_apply, show P = Matrix.updateCol 1 i _ from rfl, Matrix.updateCol_ne h]
        simp
      · intro k _ hk
        rw [Matrix.map_apply, show P = Matrix.updateCol 1 i _ from rfl, Matrix.updateCol_ne h, Matrix.one_apply_ne hk]
        simp
      · simp
  have h1 := Algebra.discr_of_matrix_vecMul (A := ℚ) a P
  obtain ⟨e, he⟩ := discr_int (a := Matrix.vecMul a (P.map (algebraMap ℚ K))) (by
    intro j
    rw [hP]
    split
    · exact hint
    · exact ha j)
  rw [← he, ← hd, hdet] at h1
  have h2 : (p : ℤ) ^ 2 * e = (x i : ℤ) ^ 2 * d := by
    have : ((p : ℚ)) ^ 2 * e = (x i : ℚ) ^ 2 * d := by
      rw [h1]
      field_simp
    exact_mod_cast this
  have hcop : IsCoprime ((p : ℤ) ^ 2) ((x i : ℤ) ^ 2) := by
    apply IsCoprime.pow
    rw [Nat.isCoprime_iff_coprime]
    exact Nat.coprime_of_lt_prime hi (hx i) hp
  exact hcop.dvd_of_dvd_mul_left ⟨e, h2.symm⟩

/-- passing to a larger lattice divides the discriminant by a square -/
theorem discr_larger {a b : Fin n → K} (hab : ∀ i, Combo b (a i)) :
    ∃ M : Matrix (Fin n) (Fin n) ℤ, Algebra.discr ℚ a = (M.det : ℚ) ^ 2 * Algebra.discr ℚ b ∧ (IsUnit M.det → ∀ i, Combo a (b i)) := by
  choose M hM using hab
  refine ⟨Matrix.of M, ?_, ?_⟩
  · have h1 := Algebra.discr_of_matrix_mulVec (A := ℚ) b ((Matrix.of M).map (Int.castRingHom ℚ))
    rw [show ((Matrix.of M).map (Int.castRingHom ℚ)).det = ((Matrix.of M).det : ℚ) from (RingHom.map_det (Int.castRingHom ℚ) (Matrix.of M)).symm] at h1
    refine Eq.trans (congrArg (Algebra.discr ℚ) ?_) h1
    funext i
    rw [hM i, Matrix.mulVec, dotProduct]
    refine Finset.sum_congr rfl fun j _ => ?_
    rw [Algebra.smul_def]
    rfl
  · intro hu i
    obtain ⟨N, hN⟩ : ∃ N : Matrix (Fin n) (Fin n) ℤ, N * Matrix.of M = 1 := ⟨(Matrix.of M)⁻¹, Matrix.nonsing_inv_mul _ hu⟩
    refine ⟨N i, ?_⟩
    have h1 : ∀ k, ∑ j, N i j * M j k = if i = k then 1 else 0 := by
      intro k
      have := congrFun (congrFun hN i) k
      rw [Matrix.mul_apply] at this
      rw [Matrix.one_apply] at this
      exact this
    calc b i = ∑ k, (((if i = k then 1 else 0 : ℤ)) : ℚ) • b k := by simp
      _ = ∑ k, ∑ j, ((N i j * M j k : ℤ) : ℚ) • b k := by
        refine Finset.sum_congr rfl fun k _ => ?_
        rw [← h1 k, Int.cast_sum, Finset.sum_smul]
      _ = ∑ j, ∑ k, ((N i j * M j k : ℤ) : ℚ) • b k := Finset.sum_comm
      _ = ∑ j, (N i j : ℚ) • a j := by
        refine Finset.sum_congr rfl fun j _ => ?_
        rw [hM j, Finset.smul_sum]
        refine Finset.sum_congr rfl fun k _ => ?_
        rw [smul_smul]
        push_cast
        rfl

omit [Module.Finite ℚ K] in
/-- a combination with coefficients in `[0, p)` divided by `p` is in the lattice only if it is zero -/
theorem not_combo_of_ne_zero {a : Fin n → K} (hli : LinearIndependent ℚ a) {p : ℕ} (hp : 0 < p) {x : Fin n → ℕ} (hx : ∀ i, x i < p)
    (h0 : (p : ℚ)⁻¹ • ∑ i, (x i : ℚ) • a i ≠ 0) : ¬ Combo a ((p : ℚ)⁻¹ • ∑ i, (x i : ℚ) • a i) := by
  rintro ⟨c, hc⟩
  have hp0 : (p : ℚ) ≠ 0 := by exact_mod_cast hp.ne'
  have h1 : ∑ i, ((p : ℚ)⁻¹ * x i - c i) • a i = 0 := by
    simp only [sub_smul, Finset.sum_sub_distrib]
    rw [← hc, Finset.smul_sum]
    simp [smul_smul]
  have h2 := Fintype.linearIndependent_iff.1 hli _ h1
  refine h0 ?_
  rw [Finset.smul_sum]
  refine Finset.sum_eq_zero fun i _ => ?_
  have h3 := h2 i
  have h4 : (x i : ℤ) = p * c i := by
    have : (x i : ℚ) = p * c i := by
      field_simp at h3
      linarith
    exact_mod_cast this
  have h5 : x i = 0 := by
    have h6 := hx i
    have h7 : (p : ℤ) ∣ x i := ⟨_, h4⟩
    exact Nat.eq_zero_of_dvd_of_lt (by exact_mod_cast h7) h6
  rw [h5]
  simp

end

end Verif.Anf
