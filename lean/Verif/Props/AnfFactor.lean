import Verif.Proofs.AnfFactorRun
import Verif.Proofs.AnfFactorYun
import Verif.Props.IntPoly

/-! Properties of factoring over number fields. -/

namespace Verif.Anf
open Verif.Rings Polynomial

local notation "qp" => polyVal (id : ℚ → ℚ)

/-- C183, the part that holds: for an irreducible modulus `f`, whatever the random choices, when `factor_primitive_sqfree_by_reduced_ring`
returns a result for `p`, its factors are distinct, monic and irreducible over the number field and the product is `p` up to a constant; when
the field has degree at least two, every exponent is one and the product of the result is exactly `p` divided by its leading coefficient.
`ratFactor` factors rational polynomials of degree less than `N`. -/
theorem C183_reduced_ring_partial (f : List ℚ) (hf : Irreducible (qp f)) {N : Nat} {ratFactor : List ℚ → Option (Option (Factored (List ℚ)))}
    (hrf : RatFactorOk N ratFactor) (rng : Nat → Nat → Nat → Nat → Nat → ℚ) (p : List (List ℚ))
    (hN : (qp f).natDegree * (polyVal (el f) p).natDegree < N) (F : Factored (List (List ℚ))) (e : reducedRing ratFactor f rng p = some F) :
    FactorsOver f F ∧ (∃ c : (NumField f)[X], IsUnit c ∧ F.denote (polyVal (el f)) * c = polyVal (el f) p) ∧
      ((qp f).natDegree ≠ 1 → (∀ g ∈ F.factors, g.2 = 1) ∧
        C (polyVal (el f) p).leadingCoeff * F.denote (polyVal (el f)) = polyVal (el f) p) := by
  haveI : Fact (Irreducible (qp f)) := ⟨hf⟩
  obtain ⟨-, h1, ⟨u, hu⟩, h3⟩ := reducedRing_spec hrf rng p hN F e
  exact ⟨h1, ⟨u, u.isUnit, hu⟩, h3⟩

/-- C183, violated: over a field of degree at least two, the result for a polynomial that is not monic is never equal to it. -/
theorem C183_leading_coeff_wrong (f : List ℚ) (hf : Irreducible (qp f)) (h2 : (qp f).natDegree ≠ 1) {N : Nat}
    {ratFactor : List ℚ → Option (Option (Factored (List ℚ)))} (hrf : RatFactorOk N ratFactor) (rng : Nat → Nat → Nat → Nat → Nat → ℚ)
    (p : List (List ℚ)) (hN : (qp f).natDegree * (polyVal (el f) p).natDegree < N) (hp : ¬ (polyVal (el f) p).Monic)
    (F : Factored (List (List ℚ))) (e : reducedRing ratFactor f rng p = some F) : F.denote (polyVal (el f)) ≠ polyVal (el f) p := by
  haveI : Fact (Irreducible (qp f)) := ⟨hf⟩
  obtain ⟨h0, h1, -, h3⟩ := reducedRing_spec hrf rng p hN F e
  intro h
  have h4 := (h3 h2).2
  rw [h] at h4
  have h5 : (C (polyVal (el f) p).leadingCoeff - 1) * polyVal (el f) p = 0 := by rw [sub_mul, h4, one_mul, sub_self]
  rcases mul_eq_zero.1 h5 with h6 | h6
  · apply hp
    rw [sub_eq_zero, ← C_1] at h6
    exact C_injective h6
  · exact h0 h6

/-- the hypotheses are met: over the Gaussian numbers, the function returns for `2x`, and the result is `x` -/
example : Irreducible (qp [1, 0, 1]) ∧ (qp [1, 0, 1]).natDegree ≠ 1 ∧ RatFactorOk 10 exFac ∧
    (qp [1, 0, 1]).natDegree * (polyVal (el [1, 0, 1]) [[], [2]]).natDegree < 10 ∧ ¬ (polyVal (el [1, 0, 1]) [[], [2]]).Monic ∧
    reducedRing exFac [1, 0, 1] exRng [[], [2]] = some ⟨[[1]], [([[], [1]], 1)]⟩ := by
  haveI : Fact (Irreducible (qp [1, 0, 1])) := ⟨gauss_irreducible⟩
  have hd : (qp [1, 0, 1]).natDegree = 2 := by rw [gauss_val]; exact natDegree_X_pow_add_C
  refine ⟨gauss_irreducible, by rw [hd]; decide, exFac_ok 10, ?_, ?_, exRun⟩
  · rw [hd, ex_modulus]
    have := natDegree_C_mul_X_pow_le (2 : NumField [1, 0, 1]) 1
    rw [pow_one] at this
    omega
  · rw [ex_modulus, Monic, leadingCoeff_C_mul_X]
    intro h
    have h3 : (1 : NumField [1, 0, 1]) = 0 := by linear_combination h
    exact one_ne_zero h3

/-- C183: `double_poly_to_row` writes the coefficients of a polynomial of degree less than `outer`, whose coefficients have degree less than
`inner`, in one row, and `row_to_double_poly` gives the polynomial back. -/
theorem C183_row_round_trip {outer inner : Nat} (hi : 0 < inner) (a : List (List ℚ)) (m : Mat ℚ) (e : doublePolyToRow outer inner a = some m) :
    m.rows = 1 ∧ m.cols = outer * inner ∧
    (∀ i < outer, ∀ j < inner, m.get 0 (i * inner + j) = some ((qp (a.getD i [])).coeff j)) ∧
    ∃ b, rowToDoublePoly outer inner m = some b ∧ b.length = outer ∧ ∀ i, qp (b.getD i []) = qp (a.getD i []) := by
  obtain ⟨h1, h2, h3⟩ := doublePolyToRow_spec hi e
  have hlt : ∀ i < outer, ∀ j < inner, i * inner + j < outer * inner := fun i hi j hj => by nlinarith
  have hget : ∀ i < outer, ∀ j < inner, m.get 0 (i * inner + j) = some ((qp (a.getD i [])).coeff j) := by
    intro i hi j hj
    obtain ⟨x, x1, x2⟩ := h3.get 0 ⟨i * inner + j, hlt i hi j hj⟩
    have x1' : m.get 0 (i * inner + j) = some x := x1
    rw [x1']
    have h4 : (i * inner + j) / inner = i := by
      rw [mul_comm, Nat.mul_add_div (by omega), Nat.div_eq_of_lt hj, add_zero]
    have h5 : (i * inner + j) % inner = j := by rw [mul_comm, Nat.mul_add_mod, Nat.mod_eq_of_lt hj]
    rw [Matrix.of_apply] at x2
    simp only [h4, h5] at x2
    exact congrArg some x2
  refine ⟨h3.rows, h3.cols, hget, ?_⟩
  have hrow : ∀ i : Fin outer, ((List.range inner).mapM fun j => m.get 0 (i * inner + j)) = some (List.ofFn fun j : Fin inner => (qp (a.getD i [])).coeff j) :=
    fun i => mapM_range_ofFn fun j => hget i i.2 j j.2
  refine ⟨List.ofFn fun i : Fin outer => List.ofFn fun j : Fin inner => (qp (a.getD i [])).coeff j, ?_, by simp, fun i => ?_⟩
  · unfold rowToDoublePoly
    rw [h3.rows, h3.cols]
    simp only [assertThat, beq_self_eq_true, if_true, Option.bind_eq_bind, Option.bind_some]
    exact mapM_range_ofFn hrow
  · by_cases hio : i < outer
    · rw [List.getD_eq_getElem?_getD, List.getElem?_ofFn]
      simp only [hio, dif_pos, Option.getD_some]
      rw [polyVal_ofFn']
      have hdeg : (qp (a.getD i [])).degree < inner := by
        rw [List.getD_eq_getElem?_getD]
        cases hq : a[i]? with
        | none => simp [polyVal]
        | some c => exact h2 c (List.mem_of_getElem? hq)
      exact vecPoly_of_degree _ hdeg
    · rw [h1 i (by omega), List.getD_eq_getElem?_getD, List.getElem?_ofFn]
      simp only [hio, dif_neg, Option.getD_none, not_false_eq_true]
      simp [polyVal]

example : doublePolyToRow 2 2 [[1, 2], [3]] = some ⟨1, 4, false, false, false, [1, 2, 3, 0]⟩ ∧
    rowToDoublePoly 2 2 ⟨1, 4, false, false, false, [1, 2, 3, 0]⟩ = some [[1, 2], [3, 0]] := by decide +kernel

/-- C184: whatever the random choices, when `factor` of a polynomial over the number field with irreducible modulus `f` returns, the answer is
`None` exactly for the zero polynomial, and otherwise a list of distinct monic irreducible polynomials with positive exponents, whose product is
the given polynomial up to a non-zero constant. Missing: that it returns (over fields of degree at least two), and that the constant is right. -/
theorem C184_factor_partial (f : List ℚ) (hf : Irreducible (qp f)) {N : Nat} {ratFactor : List ℚ → Option (Option (Factored (List ℚ)))}
    (hrf : RatFactorOk N ratFactor) (rng : Nat → Nat → Nat → Nat → Nat → ℚ) (p : List (List ℚ))
    (hN : (qp f).natDegree * (polyVal (el f) p).natDegree < N) (r : Option (Factored (List (List ℚ))))
    (e : anfFactor ratFactor f rng p = some r) :
    (polyVal (el f) p = 0 ↔ r = none) ∧
    ∀ F, r = some F → FactorsOver f F ∧ ∃ c : NumField f, c ≠ 0 ∧ F.denote (polyVal (el f)) = C c * polyVal (el f) p := by
  haveI : Fact (Irreducible (qp f)) := ⟨hf⟩
  obtain ⟨h1, h2⟩ := anfFactor_spec hrf rng p hN r e
  refine ⟨⟨h1, fun h => ?_⟩, fun F hF => ?_⟩
  · by_contra h0
    obtain ⟨F, hF, -⟩ := h2 h0
    rw [h] at hF
    cases hF
  · have h0 : polyVal (el f) p ≠ 0 := fun h0 => by
      have := h1 h0
      rw [hF] at this
      cases this
    obtain ⟨F', hF', h3, h4⟩ := h2 h0
    rw [hF] at hF'
    cases hF'
    refine ⟨h3, ?_⟩
    obtain ⟨u, hu⟩ := h4.symm
    obtain ⟨c, hc, e⟩ := Polynomial.isUnit_iff.1 u.isUnit
    exact ⟨c, hc.ne_zero, by rw [← hu, ← e, mul_comm]⟩

/-- C184: over a number field of degree one `factor` returns for every polynomial, whatever the random choices. -/
theorem C184_degree_one_returns (f : List ℚ) (h1 : (qp f).natDegree = 1) {N : Nat} {ratFactor : List ℚ → Option (Option (Factored (List ℚ)))}
    (hrf : RatFactorOk N ratFactor) (ht : RatFactorReturns N ratFactor) (rng : Nat → Nat → Nat → Nat → Nat → ℚ) (p : List (List ℚ))
    (hN : (polyVal (el f) p).natDegree < N) : ∃ r, anfFactor ratFactor f rng p = some r := by
  haveI : Fact (Irreducible (qp f)) := ⟨irreducible_of_degree_eq_one ((degree_eq_iff_natDegree_eq_of_pos one_pos).2 h1)⟩
  exact anfFactor_total hrf ht h1 rng p hN

/-- C183 and C184: the factoring of rational polynomials that the number fields call meets the two assumptions, for the polynomials whose degree
fits in a machine word, for every integer factoring function that models factoring and all fair sequences of random elements. -/
theorem C184_rat_factor_ok {factor : Int → Option (Option (Factored Int))} (hf : (intUfd factor).Models (id : Int → Int)) {rand : Nat → Nat → Int}
    (hr : ∀ p : ℕ, p.Prime → FairStream (fun a : Int => (a : ZMod (p : ℤ).natAbs)) (rand p)) :
    RatFactorOk machineRange (polyFactorizeByPrimitive ratOps intOps.bezout.toGcdOps (fun z : Int => (z : ℚ)) ratNumerator ratDenominator
      (bzFactorize factor rand)) ∧
    RatFactorReturns machineRange (polyFactorizeByPrimitive ratOps intOps.bezout.toGcdOps (fun z : Int => (z : ℚ)) ratNumerator ratDenominator
      (bzFactorize factor rand)) := by
  constructor
  · intro g r h0 hd e
    obtain ⟨F, e1, e2, c, c0, c1⟩ := C100_rat_partial hf hr g h0 hd
    rw [e1] at e
    cases e
    refine ⟨F, rfl, e2, ?_⟩
    rw [c1]
    exact associated_unit_mul_left _ _ (Polynomial.isUnit_C.2 (isUnit_iff_ne_zero.2 c0))
  · intro g h0 hd
    obtain ⟨F, e1, -⟩ := C100_rat_partial hf hr g h0 hd
    exact ⟨_, e1⟩

/-- the hypotheses are met: over the rational numbers written as a number field of degree one, `factor` returns a factorization of `x³ - 1` -/
example : ∃ ratFactor N, RatFactorOk N ratFactor ∧ RatFactorReturns N ratFactor ∧ (qp [0, 1]).natDegree = 1 ∧
    (polyVal (el [0, 1]) [[-1], [], [], [1]]).natDegree < N ∧ polyVal (el [0, 1]) [[-1], [], [], [1]] ≠ 0 ∧
    ∀ rng, ∃ F, anfFactor ratFactor [0, 1] rng [[-1], [], [], [1]] = some (some F) := by
  obtain ⟨factor, h⟩ := exists_intUfd
  obtain ⟨rand, hr⟩ := exists_fair
  obtain ⟨k1, k2⟩ := C184_rat_factor_ok h hr
  have hX : qp [0, 1] = X := by simp [polyVal_cons]
  have h1 : (qp [0, 1]).natDegree = 1 := by rw [hX, natDegree_X]
  have hirr : Irreducible (qp [0, 1]) := by rw [hX]; exact irreducible_X
  haveI : Fact (Irreducible (qp [0, 1])) := ⟨hirr⟩
  have hp : polyVal (el [0, 1]) [[-1], [], [], [1]] = (X ^ 3 - C 1 : ℚ[X]).map (algebraMap ℚ (NumField [0, 1])) := by
    have := polyVal_consts (f := [0, 1]) [-1, 0, 0, 1]
    rw [show qp [-1, 0, 0, 1] = X ^ 3 - C 1 by simp only [polyVal_cons, polyVal_nil, id, C_0, C_1, C_neg]; ring] at this
    rw [← this]
    have h0 : el [0, 1] [] = el [0, 1] (polyConst 0) := by
      rw [el_const, map_zero]
      exact map_zero (AdjoinRoot.mk (qp [0, 1]))
    simp only [List.map_cons, List.map_nil, polyVal_cons, h0]
    rfl
  have hd : (polyVal (el [0, 1]) [[-1], [], [], [1]]).natDegree = 3 := by
    rw [hp, natDegree_map, natDegree_X_pow_sub_C]
  have hlt : (polyVal (el [0, 1]) [[-1], [], [], [1]]).natDegree < machineRange := by rw [hd]; norm_num [machineRange]
  have hne : polyVal (el [0, 1]) [[-1], [], [], [1]] ≠ 0 := fun h => by rw [h] at hd; simp at hd
  refine ⟨_, machineRange, k1, k2, h1, hlt, hne, fun rng => ?_⟩
  obtain ⟨r, hr⟩ := C184_degree_one_returns [0, 1] h1 k1 k2 rng _ hlt
  obtain ⟨h2, -⟩ := C184_factor_partial [0, 1] hirr k1 rng _ (by rw [h1, one_mul]; exact hlt) r hr
  cases r with
  | none => exact absurd (h2.2 rfl) hne
  | some F => exact ⟨F, hr⟩

end Verif.Anf
