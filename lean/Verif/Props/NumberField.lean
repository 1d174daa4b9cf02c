import Verif.Proofs.NumberField5

/-!
# Number fields: the properties C167 to C169

`NumField f` is Mathlib's `ℚ[x]/(f)` (`AdjoinRoot`), `el f a` the element represented by the coefficient list `a`, and
`IsIntegralBasis` (Spec/NumberField.lean) says that a list is a `ℤ`-basis of the algebraic integers.
-/

namespace Verif.Props.NumberField
open Verif.Rings Verif.Anf Polynomial

attribute [-instance] Rat.smulDivisionRing Rat.instDistribSMul

/-- the polynomial of a coefficient list -/
local notation "qp" => polyVal (id : ℚ → ℚ)

/-- `x² - 5`, used in the examples -/
theorem five_irreducible : Irreducible (qp (quad 0 (-5))) := by
  have hm := quad_monic 0 (-5)
  rw [Polynomial.irreducible_iff_roots_eq_zero_of_degree_le_three (by rw [quad_natDegree]) (by rw [quad_natDegree]; norm_num)]
  refine Multiset.eq_zero_of_forall_notMem fun x hx => ?_
  rw [mem_roots hm.ne_zero, IsRoot.def, quad_val] at hx
  simp only [eval_add, eval_mul, eval_pow, eval_X, eval_C] at hx
  have h : x * x = ((5 : ℕ) : ℚ) := by push_cast at hx ⊢; linarith
  have : IsSquare ((5 : ℕ) : ℚ) := ⟨x, h.symm⟩
  rw [Rat.isSquare_natCast_iff] at this
  exact (Nat.prime_iff.1 (by norm_num : Nat.Prime 5)).irreducible.not_isSquare this

/-! ## C167: trace forms and discriminants -/

/-- C167: for a polynomial of positive degree and as many elements as the degree, the trace form matrix is returned and its entries are the
traces of the products of the elements. -/
theorem C167_trace_form (f : List ℚ) (hn : 0 < (qp f).natDegree) (l : List (List ℚ)) (hl : l.length = (qp f).natDegree) :
    ∃ m, traceFormMatrix f l = some m ∧ m.Denotes (id : ℚ → ℚ)
      (Matrix.of fun i j => Algebra.trace ℚ (NumField f) (els f l (qp f).natDegree i * els f l (qp f).natDegree j)) :=
  traceFormMatrix_spec (fun h => by rw [h] at hn; simp at hn) hn l hl

/-- C167: the discriminant is returned, and is the determinant of the trace form. -/
theorem C167_discriminant (f : List ℚ) (hn : 0 < (qp f).natDegree) (l : List (List ℚ)) (hl : l.length = (qp f).natDegree) :
    discriminant f l = some (Matrix.det
      (Matrix.of fun i j => Algebra.trace ℚ (NumField f) (els f l (qp f).natDegree i * els f l (qp f).natDegree j))) :=
  discriminant_spec (fun h => by rw [h] at hn; simp at hn) hn l hl

/-- C167: a list of any other length is refused. -/
theorem C167_wrong_length (f : List ℚ) (hf : qp f ≠ 0) (l : List (List ℚ)) (hl : l.length ≠ (qp f).natDegree) :
    traceFormMatrix f l = none ∧ discriminant f l = none := discriminant_length hf l hl

/-- C167: the elements are a basis of the field exactly when the discriminant is not zero. -/
theorem C167_discriminant_basis (f : List ℚ) (hf : Irreducible (qp f)) (l : List (List ℚ)) (hl : l.length = (qp f).natDegree) :
    ∃ d, discriminant f l = some d ∧ (d ≠ 0 ↔ LinearIndependent ℚ (els f l (qp f).natDegree)) := by
  haveI : Fact (Irreducible (qp f)) := ⟨hf⟩
  refine ⟨_, discriminant_spec (irr_ne f) (irr_pos f) l hl, ?_, ?_⟩
  · exact li_of_discr
  · intro h
    have hc : Fintype.card (Fin (qp f).natDegree) = Module.finrank ℚ (NumField f) := by rw [Fintype.card_fin, finrank_eq]
    haveI : Nonempty (Fin (qp f).natDegree) := ⟨⟨0, irr_pos f⟩⟩
    have := Algebra.discr_not_zero_of_basis ℚ (basisOfLinearIndependentOfCardEqFinrank h hc)
    rwa [coe_basisOfLinearIndependentOfCardEqFinrank] at this

example : 0 < (qp (quad 0 (-5))).natDegree ∧ ([[1], [0, 1]] : List (List ℚ)).length = (qp (quad 0 (-5))).natDegree ∧
    Irreducible (qp (quad 0 (-5))) := by
  rw [quad_natDegree]
  exact ⟨by norm_num, rfl, five_irreducible⟩

example : ([[1]] : List (List ℚ)).length ≠ (qp (quad 0 (-5))).natDegree := by
  rw [quad_natDegree]
  decide

/-! ## C168: algebraic integers -/

/-- C168: whenever `is_algebraic_integer` answers, the answer is right. -/
theorem C168_is_algebraic_integer (f : List ℚ) (hf : Irreducible (qp f)) (a : List ℚ) (b : Bool) (e : isAlgebraicInteger f a = some b) :
    b = true ↔ IsIntegral ℤ (el f a) := by
  haveI : Fact (Irreducible (qp f)) := ⟨hf⟩
  exact isAlgebraicInteger_sound a b e

/-- C168, the part about quadratic fields: it always answers. Missing for larger degrees, where the minimal polynomial is found with the
Smith algorithm, which panics on some matrices (see C103). -/
theorem C168_is_algebraic_integer_total_partial (f : List ℚ) (hf : Irreducible (qp f)) (h2 : (qp f).natDegree ≤ 2) (a : List ℚ) :
    ∃ b, isAlgebraicInteger f a = some b ∧ (b = true ↔ IsIntegral ℤ (el f a)) := by
  haveI : Fact (Irreducible (qp f)) := ⟨hf⟩
  obtain ⟨b, hb⟩ := isAlgebraicInteger_total a (pqMinPoly_total (irr_ne f) (irr_pos f) h2 a)
  exact ⟨b, hb, isAlgebraicInteger_sound a b hb⟩

/-- C168: whenever `integral_multiple` answers, the answer is an algebraic integer and a nonzero integer multiple of its argument; algebraic
integers are only multiplied by a unit. -/
theorem C168_integral_multiple (f : List ℚ) (hf : Irreducible (qp f)) (a b : List ℚ) (e : integralMultiple f a = some b) :
    ∃ m : ℤ, m ≠ 0 ∧ el f b = (m : ℚ) • el f a ∧ IsIntegral ℤ (el f b) ∧ (IsIntegral ℤ (el f a) → m = 1 ∨ m = -1) := by
  haveI : Fact (Irreducible (qp f)) := ⟨hf⟩
  obtain ⟨m, m1, m2, m3, -, m5⟩ := integralMultiple_sound a b e
  exact ⟨m, m1, m2, m3, fun h => Int.isUnit_iff.1 (isUnit_iff_dvd_one.2 (m5 h))⟩

/-- C168, the part about quadratic fields: `integral_multiple` always answers. -/
theorem C168_integral_multiple_total_partial (f : List ℚ) (hf : Irreducible (qp f)) (h2 : (qp f).natDegree ≤ 2) (a : List ℚ) :
    ∃ b, integralMultiple f a = some b := by
  haveI : Fact (Irreducible (qp f)) := ⟨hf⟩
  exact integralMultiple_total a fun a => pqMinPoly_total (irr_ne f) (irr_pos f) h2 a

example : Irreducible (qp (quad 0 (-5))) ∧ (qp (quad 0 (-5))).natDegree ≤ 2 := ⟨five_irreducible, (quad_natDegree _ _).le⟩

/-! ## C169: integral bases -/

/-- C169: for every irreducible polynomial, and every sound primality test used to factor discriminants, whenever `compute_integral_basis`
returns a list it is an integral basis. -/
theorem C169_integral_basis (isPrime : Nat → Option Bool) (hP : Props.Natural.PrimalitySound isPrime) (f : List ℚ) (hf : Irreducible (qp f))
    (l : List (List ℚ)) (e : computeIntegralBasis isPrime f = some l) : IsIntegralBasis f l := by
  haveI : Fact (Irreducible (qp f)) := ⟨hf⟩
  exact computeIntegralBasis_sound isPrime hP l e

/-- C169, the part about quadratic fields: for every irreducible `x² + bx + c` with integer coefficients and a discriminant below `10001²` in
absolute value, it returns an integral basis, whatever the AKS test does. -/
theorem C169_quadratic_partial (aks : Nat → Option Natural.PrimalityTestResult) (b c : ℤ) (hf : Irreducible (qp (quad b c)))
    (h : (b ^ 2 - 4 * c).natAbs < 10001 * 10001) :
    ∃ l, computeIntegralBasis (Natural.isPrimeWith aks) (quad b c) = some l ∧ IsIntegralBasis (quad b c) l := by
  haveI : Fact (Irreducible (qp (quad b c))) := ⟨hf⟩
  obtain ⟨g, m, g1, g2⟩ := computeIntegralBasis_total (f := quad b c) (Natural.isPrimeWith aks) (quad_total b c)
  have hd := g1.discr (gen_integral b c)
  have hne : b ^ 2 - 4 * c ≠ 0 := by
    intro h0
    have h1 := (g1.inv rfl).disc
    rw [hd, quad_natDegree, quad_discr, h0] at h1
    exact h1 (by norm_num)
  have hle : ∀ d : ℤ, d ∣ b ^ 2 - 4 * c → d.natAbs < 10001 * 10001 := fun d hdv =>
    lt_of_le_of_lt (Nat.le_of_dvd (Int.natAbs_pos.2 hne) (Int.natAbs_dvd_natAbs.2 hdv)) h
  refine g2 (b ^ 2 - 4 * c) ?_ ?_ ?_
  · rw [hd, quad_natDegree, quad_discr]
  · intro d hd0 hdv
    exact intFactor_small aks hd0 (hle d hdv)
  · intro p _ hp
    have := hle p hp
    rw [Int.natAbs_natCast] at this
    refine this.trans ?_
    unfold machineRange
    norm_num

/-- C169 fails: `x² - x - 3·2^64` is irreducible, but for every sound primality test `compute_integral_basis` panics: its discriminant is a
prime above `2^64`, and the prime factors are converted to machine integers before it is checked that their squares divide the
discriminant. -/
theorem C169_large_prime_wrong (isPrime : Nat → Option Bool) (hP : Props.Natural.PrimalitySound isPrime) :
    Irreducible (qp [-(3 * 2 ^ 64), -1, 1]) ∧ computeIntegralBasis isPrime [-(3 * 2 ^ 64), -1, 1] = none := by
  have e : ([-(3 * 2 ^ 64), -1, 1] : List ℚ) = quad (-1) (-(3 * 2 ^ 64)) := by
    unfold quad
    norm_num
  rw [e]
  exact ⟨bigQuad_irreducible, bigQuad_none isPrime hP⟩

example : Irreducible (qp (quad 0 (-5))) ∧ ((0 : ℤ) ^ 2 - 4 * (-5)).natAbs < 10001 * 10001 := ⟨five_irreducible, by norm_num⟩

/-- The answer for `x² - 5` is an integral basis, so `(1 + √5)/2` is found. -/
example (aks : Nat → Option Natural.PrimalityTestResult) :
    ∃ l, computeIntegralBasis (Natural.isPrimeWith aks) (quad 0 (-5)) = some l ∧ IsIntegralBasis (quad 0 (-5)) l :=
  C169_quadratic_partial aks 0 (-5) five_irreducible (by norm_num)

end Verif.Props.NumberField
