import Verif.Proofs.PolyFof
import Verif.Proofs.Lagrange
import Verif.Proofs.Numbers
import Mathlib.RingTheory.Localization.Rat
import Mathlib.RingTheory.Polynomial.Eisenstein.Criterion
import Mathlib.Tactic.NormNum.Prime
import Mathlib.Data.Nat.Prime.Int
import Mathlib.Tactic.ComputeDegree
import Mathlib.LinearAlgebra.Lagrange

/-! # C50–C64: univariate polynomials -/

namespace Verif.Rings

open Polynomial

/-! ## C50 -/

/-- C50: over every coefficient semiring, the polynomial structure presents the polynomial ring: `equal`, `zero`, `one`, `add`,
`mul` on vectors of coefficients are those of the denoted polynomials. -/
theorem C50_poly_semiring {α R : Type} [Semiring R] {S : SemiRingOps α} {v : α → R} (h : S.Models v) :
    S.poly.Models (polyVal v) := h.poly

/-- C50: over every coefficient ring, also `neg`. -/
theorem C50_poly_ring {α R : Type} [Ring R] {S : RingOps α} {v : α → R} (h : S.Models v) : S.poly.Models (polyVal v) := h.poly

/-- C50: two vectors are `equal` iff they have the same coefficients, however many trailing zeros they have. -/
theorem C50_poly_equal {α R : Type} [Semiring R] {S : SemiRingOps α} {v : α → R} (h : S.Models v) (a b : List α) :
    S.polyEqual a b = true ↔ ∀ i, v (S.polyCoeff a i) = v (S.polyCoeff b i) := by
  rw [h.polyEqual, Polynomial.ext_iff]
  simp only [h.polyCoeff]

/-- C50: `reduce`, `add` and `mul` return vectors without trailing zeros, and `reduce` does not change the polynomial; a vector
without trailing zeros is as long as the degree demands. -/
theorem C50_poly_reduced {α R : Type} [Semiring R] {S : SemiRingOps α} {v : α → R} (h : S.Models v) (a b : List α) (x : α) :
    polyVal v (S.polyReduce a) = polyVal v a ∧ PolyReduced v (S.polyReduce a) ∧ PolyReduced v (S.polyAdd a b) ∧
      PolyReduced v (S.polyMul a b) ∧ PolyReduced v (S.polyMulScalar a x) ∧
      (polyVal v a ≠ 0 → (S.polyReduce a).length = (polyVal v a).natDegree + 1) ∧
      (polyVal v a = 0 → S.polyReduce a = []) := by
  refine ⟨h.polyReduce a, h.polyReduce_reduced a, h.polyReduce_reduced _, h.polyReduce_reduced _, h.polyReduce_reduced _, ?_, ?_⟩
  · intro ha
    have hne : S.polyReduce a ≠ [] := by
      intro e
      apply ha
      rw [← h.polyReduce a, e]; rfl
    have := polyReduced_natDegree _ (h.polyReduce_reduced a) hne
    rw [h.polyReduce a] at this
    omega
  · intro ha
    exact polyReduced_zero _ (h.polyReduce_reduced a) (by rw [h.polyReduce, ha])

/-! ## C51 -/

/-- C51: `evaluate(p, x)` is the value of the polynomial at `x` and `compose(p, q)` is `p(q)`. -/
theorem C51_evaluate_compose {α R : Type} [Semiring R] {S : SemiRingOps α} {v : α → R} (h : S.Models v) (p q : List α) (x : α) :
    v (S.polyEvaluate p x) = (polyVal v p).eval (v x) ∧ polyVal v (S.polyCompose p q) = (polyVal v p).comp (polyVal v q) :=
  ⟨h.polyEvaluate p x, h.polyCompose p q⟩

/-- C51: evaluation respects sums and products over commutative rings, and evaluating a composition is evaluating twice. -/
theorem C51_evaluate_hom {α R : Type} [CommSemiring R] {S : SemiRingOps α} {v : α → R} (h : S.Models v) (p q : List α) (x : α) :
    v (S.polyEvaluate (S.polyAdd p q) x) = v (S.polyEvaluate p x) + v (S.polyEvaluate q x) ∧
    v (S.polyEvaluate (S.polyMul p q) x) = v (S.polyEvaluate p x) * v (S.polyEvaluate q x) ∧
    v (S.polyEvaluate (S.polyCompose p q) x) = v (S.polyEvaluate p (S.polyEvaluate q x)) := by
  simp only [h.polyEvaluate, h.polyAdd, h.polyMul, h.polyCompose, eval_add, eval_mul, eval_comp, and_self]

/-! ## C52 -/

/-- C52: `coeff`, `degree` (`None` exactly for the zero polynomial), `num_coeffs`, `leading_coeff`. -/
theorem C52_degree {α R : Type} [Semiring R] {S : SemiRingOps α} {v : α → R} (h : S.Models v) (p : List α) :
    (∀ i, v (S.polyCoeff p i) = (polyVal v p).coeff i) ∧
    (polyVal v p = 0 → S.polyDegree p = none ∧ S.polyNumCoeffs p = 0 ∧ S.polyLeadingCoeff p = none) ∧
    (polyVal v p ≠ 0 → S.polyDegree p = some (polyVal v p).natDegree ∧ S.polyNumCoeffs p = (polyVal v p).natDegree + 1 ∧
      ∃ c, S.polyLeadingCoeff p = some c ∧ v c = (polyVal v p).leadingCoeff) :=
  ⟨h.polyCoeff p, fun hp => ⟨h.polyDegree_none p hp, h.polyNumCoeffs_zero p hp, h.polyLeadingCoeff_none p hp⟩,
    fun hp => ⟨h.polyDegree_some p hp, h.polyNumCoeffs_ne p hp, h.polyLeadingCoeff_some p hp⟩⟩

/-- C52: `var`, `var_pow`, `constant_var_pow`, `mul_var_pow`, `mul_scalar`, `constant`. -/
theorem C52_builders {α R : Type} [Semiring R] {S : SemiRingOps α} {v : α → R} (h : S.Models v) (p : List α) (x : α) (n : Nat) :
    polyVal v S.polyVar = X ∧ polyVal v (S.polyVarPow n) = X ^ n ∧ polyVal v (S.polyConstVarPow x n) = C (v x) * X ^ n ∧
    polyVal v (S.polyMulVarPow p n) = polyVal v p * X ^ n ∧ polyVal v (S.polyMulScalar p x) = polyVal v p * C (v x) ∧
    polyVal v (polyConst x) = C (v x) :=
  ⟨h.polyVar, h.polyVarPow n, h.polyConstVarPow x n, h.polyMulVarPow p n, h.polyMulScalar p x, polyVal_const v x⟩

/-- C52: `as_constant` returns the constant of a constant polynomial and `None` for every other one. -/
theorem C52_as_constant {α R : Type} [Semiring R] {S : SemiRingOps α} {v : α → R} (h : S.Models v) (p : List α) :
    (∀ c, polyVal v p = C c → ∃ x, S.polyAsConstant p = some x ∧ v x = c) ∧
    ((∀ c, polyVal v p ≠ C c) → S.polyAsConstant p = none) := ⟨h.polyAsConstant_some p, h.polyAsConstant_none p⟩

/-- C52: `is_monic` decides whether the leading coefficient is one. -/
theorem C52_is_monic {α R : Type} [Semiring R] [Nontrivial R] {S : SemiRingOps α} {v : α → R} (h : S.Models v) (p : List α) :
    S.polyIsMonic p = true ↔ (polyVal v p).Monic := h.polyIsMonic p one_ne_zero

/-- C52: `derivative` is the formal derivative. -/
theorem C52_derivative {α R : Type} [CommSemiring R] {S : SemiRingOps α} {v : α → R} (h : S.Models v) (p : List α) :
    polyVal v (S.polyDerivative p) = derivative (polyVal v p) := h.polyDerivative p

/-- C52: `reversed` of a vector without trailing zeros is `x^n p(1/x)`, `n` the degree. -/
theorem C52_reversed_partial {α R : Type} [Semiring R] (v : α → R) (p : List α) (hr : PolyReduced v p) :
    polyVal v (polyReversed p) = (polyVal v p).reflect (polyVal v p).natDegree := polyReversed_spec v p hr

/-- C52: the documented `x^n p(1/x)` fails for vectors with trailing zeros, which `from_coeffs` builds: the constant `1` given
as `[1, 0]` is reversed to `x`. -/
theorem C52_reversed_wrong : ∃ p : List Int,
    polyVal id (polyReversed p) ≠ (polyVal (id : Int → Int) p).reflect (polyVal (id : Int → Int) p).natDegree := by
  refine ⟨[1, 0], fun e => ?_⟩
  have h1 : polyVal (id : Int → Int) [1, 0] = 1 := by simp
  have h2 : polyVal (id : Int → Int) (polyReversed [1, 0]) = X := by simp [polyReversed]
  rw [h1, h2, natDegree_one, ← C_1, reflect_C] at e
  have := congrArg (Polynomial.coeff · 1) e
  simp [coeff_one] at this

/-! ## C53 -/

/-- C53: `try_quorem(a, b)` over an integral domain: `DivideByZero` iff `b = 0`; otherwise `Ok((q, r))` with `a = qb + r` and
`deg r < deg b`, or `NotDivisible` and then no such pair exists. It never panics. -/
theorem C53_try_quorem {α R : Type} [CommRing R] {S : DomainOps α} {v : α → R} (h : S.Models v) (a b : List α) :
    (polyVal v b = 0 ∧ S.polyTryQuorem a b = some (.error .divideByZero)) ∨
    (polyVal v b ≠ 0 ∧ ∃ q r, S.polyTryQuorem a b = some (.ok (q, r)) ∧
      polyVal v a = polyVal v q * polyVal v b + polyVal v r ∧ (polyVal v r).degree < (polyVal v b).degree) ∨
    (polyVal v b ≠ 0 ∧ S.polyTryQuorem a b = some (.error .notDivisible) ∧
      ¬ ∃ Q T, polyVal v a = Q * polyVal v b + T ∧ T.degree < (polyVal v b).degree) := h.polyTryQuorem a b

/-- C53: quotient and remainder are unique. -/
theorem C53_quorem_unique {α R : Type} [CommRing R] {S : DomainOps α} {v : α → R} (h : S.Models v) (a b q r : List α)
    (hq : S.polyTryQuorem a b = some (.ok (q, r))) (Q T : R[X]) (h1 : polyVal v a = Q * polyVal v b + T)
    (h2 : T.degree < (polyVal v b).degree) : polyVal v q = Q ∧ polyVal v r = T := by
  haveI := h.domain
  rcases h.polyTryQuorem a b with ⟨-, e⟩ | ⟨-, q', r', e, h3, h4⟩ | ⟨-, e, -⟩
  · rw [hq] at e; simp at e
  · rw [hq] at e
    simp only [Option.some.injEq, Except.ok.injEq, Prod.mk.injEq] at e
    rw [e.1, e.2]
    exact decomp_unique h3 h4 h1 h2
  · rw [hq] at e; simp at e

/-- C53: `div` on polynomials over a domain is exact division: `DivideByZero` iff the divisor is zero, `Ok(q)` with `a = q*b` iff
`b` divides `a`, `NotDivisible` otherwise; so polynomials over a domain are again a domain. -/
theorem C53_div {α R : Type} [CommRing R] {S : DomainOps α} {v : α → R} (h : S.Models v) : S.poly.Models (polyVal v) := h.poly

/-! ## C54 -/

/-- C54: `pseudorem(a, b)`: `None` iff `b = 0`; an error iff `deg a < deg b` (the zero polynomial below all); otherwise
`Some(Ok(r))` where `lc(b)^(deg a - deg b + 1) a = Q b + r` with `deg r < deg b`. -/
theorem C54_pseudorem {α R : Type} [CommRing R] {S : DomainOps α} {v : α → R} (h : S.Models v) (a b : List α) :
    (polyVal v b = 0 → S.polyPseudorem a b = some .divisorZero) ∧
    (polyVal v b ≠ 0 → (polyVal v a).degree < (polyVal v b).degree → S.polyPseudorem a b = some .degreeTooSmall) ∧
    (polyVal v b ≠ 0 → (polyVal v b).degree ≤ (polyVal v a).degree → ∃ r, S.polyPseudorem a b = some (.ok r) ∧
      (polyVal v r).degree < (polyVal v b).degree ∧
      ∃ Q, C ((polyVal v b).leadingCoeff ^ ((polyVal v a).natDegree - (polyVal v b).natDegree + 1)) * polyVal v a
        = Q * polyVal v b + polyVal v r) := by
  refine ⟨fun hb => ?_, fun hb hd => ?_, fun hb hd => ?_⟩
  · rw [DomainOps.polyPseudorem, h.toSemi.polyNumCoeffs_zero b hb]; rfl
  · rw [DomainOps.polyPseudorem, h.toSemi.polyNumCoeffs_ne b hb]
    simp only [Nat.add_eq_zero_iff, one_ne_zero, and_false, if_false]
    rw [if_pos]
    by_cases ha : polyVal v a = 0
    · rw [h.toSemi.polyNumCoeffs_zero a ha]; omega
    · rw [h.toSemi.polyNumCoeffs_ne a ha]
      have := (natDegree_lt_natDegree_iff ha).2 hd
      omega
  · have ha : polyVal v a ≠ 0 := by
      intro e
      rw [e, degree_zero, le_bot_iff, degree_eq_bot] at hd
      exact hb hd
    obtain ⟨r, h1, -, h2, h3⟩ := h.polyPremUnwrap a b hb ha (natDegree_le_natDegree hd)
    exact ⟨r, h1, h2, h3⟩

/-! ## C55 -/

/-- C55: `factor_fav_assoc` on polynomials meets the contract of favourite associates; the favourite associate of a nonzero
polynomial is it divided by the unit of its leading coefficient. -/
theorem C55_poly_fav_assoc {α R : Type} [CommRing R] {S : FavOps α} {v : α → R} (h : S.Models v) :
    S.poly.Models (polyVal v) ∧
    ∀ a, polyVal v a ≠ 0 → ∃ l u c w, v l = (polyVal v a).leadingCoeff ∧ S.factorFavAssoc l = some (u, c) ∧ IsUnit (v u) ∧
      v l = v u * v c ∧ S.polyFactorFavAssoc a = some (polyConst u, w) ∧ polyVal v a = C (v u) * polyVal v w :=
  ⟨h.poly, h.polyFactorFavAssoc_ne⟩

/-- C55: `factor_primitive(p)` is `None` for zero and otherwise `(g, q)` with `p = g q`, `q` primitive, `g` a favourite associate;
`is_primitive` decides primitivity. -/
theorem C55_factor_primitive {α R : Type} [CommRing R] {S : GcdOps α} {v : α → R} (h : S.Models v) (p : List α) :
    (polyVal v p = 0 → S.polyFactorPrimitive p = some none ∧ S.polyIsPrimitive p = some false ∧
      S.polyPrimitivePart p = some none) ∧
    (polyVal v p ≠ 0 → ∃ g q b, S.polyFactorPrimitive p = some (some (g, q)) ∧ S.polyPrimitivePart p = some (some q) ∧
      v g ≠ 0 ∧ S.IsFav v (v g) ∧ polyVal v p = C (v g) * polyVal v q ∧ (polyVal v q).IsPrimitive ∧
      S.polyIsPrimitive p = some b ∧ (b = true ↔ (polyVal v p).IsPrimitive)) := by
  refine ⟨fun hp => ?_, fun hp => ?_⟩
  · have := h.polyFactorPrimitive_zero p hp
    exact ⟨this, by rw [GcdOps.polyIsPrimitive, this]; rfl, by rw [GcdOps.polyPrimitivePart, this]; rfl⟩
  · obtain ⟨g, q, h1, h2, h3, h4, h5, -⟩ := h.polyFactorPrimitive p hp
    exact ⟨g, q, _, h1, by rw [GcdOps.polyPrimitivePart, h1]; rfl, h2, h3, h4, h5, h.polyIsPrimitive p hp, by simp⟩

/-- C55: if `units` lists the units of the coefficient ring, `all_units` lists those of the polynomial ring. -/
theorem C55_all_units {α R : Type} [CommRing R] [IsDomain R] (v : α → R) (units : List α)
    (hu : ∀ r : R, IsUnit r ↔ ∃ u ∈ units, v u = r) (f : R[X]) :
    IsUnit f ↔ ∃ p ∈ polyAllUnits units, polyVal v p = f := by
  rw [Polynomial.isUnit_iff]
  simp only [polyAllUnits, List.mem_map, exists_exists_and_eq_and, polyVal_const]
  constructor
  · rintro ⟨r, hr, rfl⟩
    obtain ⟨u, h1, rfl⟩ := (hu r).1 hr
    exact ⟨u, h1, rfl⟩
  · rintro ⟨u, h1, rfl⟩
    exact ⟨v u, (hu _).2 ⟨u, h1, rfl⟩, rfl⟩

/-! ## C56 -/

/-- C56: `subresultant_gcd(a, b)` of polynomials over a domain, not both zero, never panics (every division in the sequence is
exact), and over the field of fractions its result generates the ideal `(a, b)`: it is a gcd up to a scalar. -/
theorem C56_subresultant_gcd_partial {α R K : Type} [CommRing R] [Field K] [Algebra R K] [IsFractionRing R K]
    {S : DomainOps α} {v : α → R} (h : S.Models v) (a b : List α) (hab : ¬ (polyVal v a = 0 ∧ polyVal v b = 0)) :
    ∃ g, S.polySubresultantGcd a b = some g ∧ polyVal v g ≠ 0 ∧
      Ideal.span {(polyVal v g).map (algebraMap R K)}
        = Ideal.span {(polyVal v a).map (algebraMap R K), (polyVal v b).map (algebraMap R K)} :=
  polySubresultantGcd_spec h a b hab

/-- C56: `subresultant_gcd(0, 0)` panics. -/
theorem C56_subresultant_gcd_wrong {α R : Type} [CommRing R] {S : DomainOps α} {v : α → R} (h : S.Models v) (a b : List α)
    (ha : polyVal v a = 0) (hb : polyVal v b = 0) : S.polySubresultantGcd a b = none := polySubresultantGcd_zero h a b ha hb

/-! ## C57 -/

/-- C57: `resultant(a, b)` never panics; it is zero if one of the polynomials is; if `deg b ≤ deg a` it is the resultant (the
determinant of the Sylvester matrix) of `a` and `b`, otherwise that of `b` and `a`. -/
theorem C57_resultant_partial {α R : Type} [CommRing R] {S : DomainOps α} {v : α → R} (h : S.Models v) (a b : List α) :
    (polyVal v a = 0 ∨ polyVal v b = 0 → S.polyResultant a b = some S.zero) ∧
    (polyVal v a ≠ 0 → polyVal v b ≠ 0 → ∃ s, S.polyResultant a b = some s ∧
      ((polyVal v b).natDegree ≤ (polyVal v a).natDegree → v s = (polyVal v a).resultant (polyVal v b)) ∧
      ((polyVal v a).natDegree < (polyVal v b).natDegree → v s = (polyVal v b).resultant (polyVal v a)) ∧
      v s = (if (polyVal v a).natDegree < (polyVal v b).natDegree
        then (-1) ^ ((polyVal v a).natDegree * (polyVal v b).natDegree) else 1) * (polyVal v a).resultant (polyVal v b)) := by
  refine ⟨polyResultant_zero h a b, fun ha hb => ?_⟩
  obtain ⟨s, h1, h2⟩ := polyResultant_spec h a b ha hb
  refine ⟨s, h1, fun hd => by rw [h2, if_neg (by omega)], fun hd => by rw [h2, if_pos hd], ?_⟩
  rw [h2]
  split
  · rw [resultant_comm, mul_comm (polyVal v a).natDegree]
  · rw [one_mul]

/-- C57: the resultant vanishes exactly if the polynomials have a common factor over the field of fractions; this does hold for
every pair of nonzero polynomials, whatever their degrees. -/
theorem C57_resultant_eq_zero {α R K : Type} [CommRing R] [Field K] [Algebra R K] [IsFractionRing R K]
    {S : DomainOps α} {v : α → R} (h : S.Models v) (a b : List α) (ha : polyVal v a ≠ 0) (hb : polyVal v b ≠ 0) :
    ∃ s, S.polyResultant a b = some s ∧
      (v s = 0 ↔ ¬ IsCoprime ((polyVal v a).map (algebraMap R K)) ((polyVal v b).map (algebraMap R K))) := by
  have hinj : Function.Injective (algebraMap R K) := IsFractionRing.injective R K
  haveI := h.domain
  obtain ⟨s, h1, h2⟩ := polyResultant_spec h a b ha hb
  refine ⟨s, h1, ?_⟩
  have key (A B : R[X]) (hA : A ≠ 0) : A.resultant B = 0 ↔ ¬ IsCoprime (A.map (algebraMap R K)) (B.map (algebraMap R K)) := by
    have e : (A.map (algebraMap R K)).resultant (B.map (algebraMap R K)) = algebraMap R K (A.resultant B) := by
      rw [natDegree_map_eq_of_injective hinj, natDegree_map_eq_of_injective hinj, resultant_map_map]
    have := resultant_eq_zero_iff (f := A.map (algebraMap R K)) (g := B.map (algebraMap R K))
    rw [e, map_eq_zero_iff _ hinj] at this
    rw [this]
    exact ⟨fun h => h.2, fun h => ⟨Or.inl ((Polynomial.map_ne_zero_iff hinj).2 hA), h⟩⟩
  rw [h2]
  split
  · rw [key _ _ hb, isCoprime_comm]
  · rw [key _ _ ha]

/-- C57: when `deg a < deg b` and both degrees are odd the sign is wrong: over the integers `resultant(x, x^3 + 1)` is `-1`, not
the determinant `1` of the Sylvester matrix. -/
theorem C57_resultant_wrong : ∃ (a b : List Int) (s : Int), polyVal (id : Int → Int) a = X ∧ polyVal (id : Int → Int) b = X ^ 3 + 1 ∧
    intOps.polyResultant a b = some s ∧ s = -1 ∧ (X : Int[X]).resultant (X ^ 3 + 1) = 1 := by
  have ha : polyVal (id : Int → Int) [0, 1] = X := by simp
  have hb : polyVal (id : Int → Int) [1, 0, 0, 1] = X ^ 3 + 1 := by simp; ring
  have hd : (X ^ 3 + 1 : Int[X]).natDegree = 3 := by compute_degree!
  have hr : (X : Int[X]).resultant (X ^ 3 + 1) = 1 := by
    have := resultant_X_sub_C_left (X ^ 3 + 1 : Int[X]) 3 0 hd.le
    rw [C_0, sub_zero] at this
    rw [hd, natDegree_X, this]; simp
  obtain ⟨s, h1, -, -, h2⟩ := (C57_resultant_partial intOps_models.toDomain [0, 1] [1, 0, 0, 1]).2 (by rw [ha]; exact X_ne_zero)
    (by rw [hb]; intro e; rw [e, natDegree_zero] at hd; exact absurd hd (by norm_num))
  refine ⟨_, _, s, ha, hb, h1, ?_, hr⟩
  rw [ha, hb, hr, hd, natDegree_X] at h2
  simpa using h2

/-! ## C58 -/

/-- C58: `discriminant(p)` of a nonconstant polynomial over a domain of characteristic zero never panics and is the discriminant;
for constants it is the documented error. -/
theorem C58_discriminant_partial {α R : Type} [CommRing R] [CharZero R] {S : DomainOps α} {v : α → R} (h : S.Models v)
    (p : List α) :
    ((polyVal v p).natDegree = 0 → S.polyDiscriminant p = some none) ∧
    (0 < (polyVal v p).natDegree → ∃ d, S.polyDiscriminant p = some (some d) ∧ v d = (polyVal v p).discr) := by
  haveI := h.domain
  refine ⟨polyDiscriminant_const h p, fun hp => polyDiscriminant_spec h p hp (Or.inl ?_)⟩
  exact natDegree_derivative _

/-- C58: in any domain, the discriminant is right when the degree is not zero in the ring, or the derivative vanishes. -/
theorem C58_discriminant_any_char_partial {α R : Type} [CommRing R] {S : DomainOps α} {v : α → R} (h : S.Models v) (p : List α)
    (hp : 0 < (polyVal v p).natDegree) (hd : ((polyVal v p).natDegree : R) ≠ 0 ∨ derivative (polyVal v p) = 0) :
    ∃ d, S.polyDiscriminant p = some (some d) ∧ v d = (polyVal v p).discr := by
  haveI := h.domain
  apply polyDiscriminant_spec h p hp
  rcases hd with hd | hd
  · left
    refine natDegree_eq_of_le_of_coeff_ne_zero (natDegree_derivative_le _) ?_
    rw [coeff_derivative]
    have e : (polyVal v p).natDegree - 1 + 1 = (polyVal v p).natDegree := by omega
    have e2 : ((((polyVal v p).natDegree - 1 : Nat) : R) + 1) = ((polyVal v p).natDegree : R) := by
      rw [← e]; push_cast; simp
    rw [e2, e]
    exact mul_ne_zero (leadingCoeff_ne_zero.2 fun e => by rw [e, natDegree_zero] at hp; exact absurd hp (lt_irrefl _)) hd
  · exact Or.inr hd

/-- The polynomial ring in `t` over the integers modulo two, as the library builds it. -/
abbrev f2t : DomainOps (List Int) := (intOps.quotientField 2).poly

/-- The element of `(ℤ/2)[t]` denoted. -/
noncomputable abbrev f2tVal : List Int → (Int ⧸ Ideal.span {(2 : Int)})[X] :=
  polyVal fun a => Ideal.Quotient.mk (Ideal.span {(2 : Int)}) a

theorem f2t_models : f2t.Models f2tVal :=
  (intOps_models.quotientField 2 (Int.prime_two.irreducible)).1.poly

theorem f2t_two : (2 : (Int ⧸ Ideal.span {(2 : Int)})[X]) = 0 := by
  have : (2 : Int ⧸ Ideal.span {(2 : Int)}) = 0 := by
    have := (Ideal.Quotient.eq_zero_iff_mem (I := Ideal.span {(2 : Int)}) (a := 2)).2 (Ideal.subset_span rfl)
    simpa using this
  have e : (2 : (Int ⧸ Ideal.span {(2 : Int)})[X]) = C 2 := (map_ofNat C 2).symm
  rw [e, this, C_0]

instance f2_domain : IsDomain (Int ⧸ Ideal.span {(2 : Int)}) :=
  (intOps_models.quotientField 2 (Int.prime_two.irreducible)).1.domain

/-- C58: in positive characteristic `discriminant` may panic although the discriminant exists: the discriminant of
`t x^2 + x` over `(ℤ/2)[t]` is `1`, and `discriminant` divides `1` by `t`. -/
theorem C58_discriminant_wrong : ∃ p : List (List Int), f2t.polyDiscriminant p = none ∧ (polyVal f2tVal p).degree = 2 ∧
    (polyVal f2tVal p).discr = 1 := by
  have h := f2t_models
  have ht : f2tVal [0, 1] = X := by simp
  have hp : polyVal f2tVal [[], [1], [0, 1]] = C X * X ^ 2 + X := by
    simp [f2tVal]; ring
  have hX : (X : (Int ⧸ Ideal.span {(2 : Int)})[X]) ≠ 0 := X_ne_zero
  have hdeg : (polyVal f2tVal [[], [1], [0, 1]]).degree = 2 := by
    rw [hp]; compute_degree!
  have hnat : (polyVal f2tVal [[], [1], [0, 1]]).natDegree = 2 := natDegree_eq_of_degree_eq_some hdeg
  have hd1 : derivative (polyVal f2tVal [[], [1], [0, 1]]) = 1 := by
    rw [hp]; simp [one_add_one_eq_two, f2t_two]
  have h0 : polyVal f2tVal [[], [1], [0, 1]] ≠ 0 := fun e => by rw [e, natDegree_zero] at hnat; omega
  refine ⟨[[], [1], [0, 1]], ?_, hdeg, ?_⟩
  · obtain ⟨s, h1, h2⟩ := polyResultant_spec h [[], [1], [0, 1]] (f2t.polyDerivative [[], [1], [0, 1]]) h0
      (by rw [h.toSemi.polyDerivative, hd1]; exact one_ne_zero)
    rw [h.toSemi.polyDerivative, hd1, natDegree_one, if_neg (by omega)] at h2
    have h3 : f2tVal s = 1 := by
      rw [h2, ← C_1 (R := (Int ⧸ Ideal.span {(2 : Int)})[X])]; simp
    rw [DomainOps.polyDiscriminant, h.toSemi.polyDegree_some _ h0, hnat]
    simp only [OfNat.ofNat_ne_zero, if_false]
    rw [h1]
    simp only [Option.bind_eq_bind, Option.bind_some]
    rw [h.div_not]
    · rfl
    · exact ht ▸ hX
    · rw [h3]
      intro hd
      have : f2tVal (f2t.polyCoeff [[], [1], [0, 1]] 2) = X := ht
      rw [this] at hd
      exact not_isUnit_X (isUnit_of_dvd_one hd)
  · rw [discr_of_degree_eq_two hdeg, hp]
    have : (4 : (Int ⧸ Ideal.span {(2 : Int)})[X]) = 0 := by
      have : (4 : (Int ⧸ Ideal.span {(2 : Int)})[X]) = 2 * 2 := by norm_num
      rw [this, f2t_two, mul_zero]
    rw [this]; simp [coeff_X]

/-! ## C59 -/

/-- C59: over a domain whose field of fractions is perfect (characteristic zero, finite fields), `is_squarefree(p)` of a nonzero
polynomial never panics and tells whether `p` is squarefree over the field of fractions. -/
theorem C59_is_squarefree_partial {α R K : Type} [CommRing R] [Field K] [Algebra R K] [IsFractionRing R K] [PerfectField K]
    {S : DomainOps α} {v : α → R} (h : S.Models v) (p : List α) (hp : polyVal v p ≠ 0) :
    ∃ b, S.polyIsSquarefree p = some b ∧ (b = true ↔ Squarefree ((polyVal v p).map (algebraMap R K))) := by
  obtain ⟨b, h1, h2⟩ := polyIsSquarefree_spec (K := K) h p hp
  exact ⟨b, h1, by rw [h2, PerfectField.separable_iff_squarefree]⟩

/-- C59: over any domain, it decides separability. -/
theorem C59_is_squarefree_separable {α R K : Type} [CommRing R] [Field K] [Algebra R K] [IsFractionRing R K]
    {S : DomainOps α} {v : α → R} (h : S.Models v) (p : List α) (hp : polyVal v p ≠ 0) :
    ∃ b, S.polyIsSquarefree p = some b ∧ (b = true ↔ ((polyVal v p).map (algebraMap R K)).Separable) :=
  polyIsSquarefree_spec (K := K) h p hp

/-- C59: `is_squarefree(0)` panics. -/
theorem C59_is_squarefree_zero_wrong {α R : Type} [CommRing R] {S : DomainOps α} {v : α → R} (h : S.Models v) (p : List α)
    (hp : polyVal v p = 0) : S.polyIsSquarefree p = none := polyIsSquarefree_zero h p hp

/-- C59: over an imperfect field the answer is wrong: `x^2 + t` over `(ℤ/2)[t]` is irreducible and not squarefree according to
`is_squarefree`. -/
theorem C59_is_squarefree_wrong : ∃ p : List (List Int), f2t.polyIsSquarefree p = some false ∧ Irreducible (polyVal f2tVal p) ∧
    Irreducible ((polyVal f2tVal p).map
      (algebraMap (Int ⧸ Ideal.span {(2 : Int)})[X] (FractionRing (Int ⧸ Ideal.span {(2 : Int)})[X]))) := by
  have h := f2t_models
  have hp : polyVal f2tVal [[0, 1], [], [1]] = X ^ 2 + C X := by
    simp [f2tVal]; ring
  have hnat : (X ^ 2 + C X : (Int ⧸ Ideal.span {(2 : Int)})[X][X]).natDegree = 2 := by compute_degree!
  have hmon : (X ^ 2 + C X : (Int ⧸ Ideal.span {(2 : Int)})[X][X]).Monic := by monicity!
  have h0 := hmon.ne_zero
  have hirr : Irreducible (X ^ 2 + C X : (Int ⧸ Ideal.span {(2 : Int)})[X][X]) := by
    have hX : Prime (X : (Int ⧸ Ideal.span {(2 : Int)})[X]) := prime_X
    refine irreducible_of_eisenstein_criterion (P := Ideal.span {X}) ((Ideal.span_singleton_prime hX.ne_zero).2 hX) ?_ ?_ ?_ ?_ ?_
    · rw [hmon.leadingCoeff, Ideal.mem_span_singleton]; exact fun e => not_isUnit_X (isUnit_of_dvd_one e)
    · intro n hn
      rw [degree_eq_natDegree h0, hnat] at hn
      have hn' : n < 2 := by exact_mod_cast hn
      rw [Ideal.mem_span_singleton]
      interval_cases n <;> simp [coeff_X_pow, coeff_C]
    · rw [degree_eq_natDegree h0, hnat]; norm_num
    · simp only [coeff_add, coeff_X_pow, coeff_C_zero]
      rw [Ideal.span_singleton_pow, Ideal.mem_span_singleton]
      simp only [OfNat.zero_ne_ofNat, if_false, zero_add]
      rintro ⟨c, hc⟩
      apply not_isUnit_X (R := Int ⧸ Ideal.span {(2 : Int)})
      refine isUnit_of_dvd_one ⟨c, ?_⟩
      apply mul_left_cancel₀ (X_ne_zero (R := Int ⧸ Ideal.span {(2 : Int)}))
      rw [mul_one, ← mul_assoc, ← pow_two]; exact hc
    · exact hmon.isPrimitive
  refine ⟨[[0, 1], [], [1]], ?_, hp ▸ hirr, ?_⟩
  · obtain ⟨b, h1, h2⟩ := polyIsSquarefree_spec (K := FractionRing (Int ⧸ Ideal.span {(2 : Int)})[X]) h [[0, 1], [], [1]] (hp ▸ h0)
    rw [h1]
    congr 1
    rw [Bool.eq_false_iff]
    intro hb
    have hs := h2.1 hb
    have hder : derivative (X ^ 2 + C X : (Int ⧸ Ideal.span {(2 : Int)})[X][X]) = 0 := by
      simp [one_add_one_eq_two, f2t_two]
    rw [hp, Polynomial.Separable, derivative_map, hder, Polynomial.map_zero, isCoprime_zero_right] at hs
    have := natDegree_eq_zero_of_isUnit hs
    rw [hmon.natDegree_map, hnat] at this
    omega
  · rw [hp]
    haveI : IsGCDMonoid (Int ⧸ Ideal.span {(2 : Int)})[X] := by
      have hf := (intOps_models.quotientField 2 (Int.prime_two.irreducible))
      letI := hf.2.toField
      exact (DomainOps.Models.polyEuc (S := intOps.quotientField 2) hf.1).bezout.toGcd.isGCDMonoid
    exact hmon.isPrimitive.irreducible_iff_irreducible_map_fraction_map.1 hirr

/-! ## C60 -/

/-- C60: `interpolate_by_lagrange_basis` on points with distinct first coordinates never panics: it returns a polynomial through
all the points of degree less than their number, or `None`, and then no polynomial with coefficients in the ring passes through
them. -/
theorem C60_lagrange {α R : Type} [CommRing R] {S : DomainOps α} {v : α → R} (h : S.Models v) (pts : List (α × α))
    (hinj : (pts.map fun q => v q.1).Nodup) :
    (∃ f, S.polyInterpolateLagrange pts = some (some f) ∧ (polyVal v f).degree < pts.length ∧
      ∀ q ∈ pts, (polyVal v f).eval (v q.1) = v q.2) ∨
    (S.polyInterpolateLagrange pts = some none ∧ ¬ ∃ P : R[X], ∀ q ∈ pts, P.eval (v q.1) = v q.2) := by
  have hget (i : Nat) (hi : i < pts.length) : pts.getD i (S.zero, S.zero) = pts[i] := by simp [hi]
  have hall (P : R[X]) : (∀ l, l < pts.length → P.eval (xOf pts S v l) = yOf pts S v l) ↔ ∀ q ∈ pts, P.eval (v q.1) = v q.2 := by
    constructor
    · intro H q hq
      obtain ⟨i, hi, rfl⟩ := List.getElem_of_mem hq
      have := H i hi
      rwa [xOf, yOf, hget i hi] at this
    · intro H l hl
      rw [xOf, yOf, hget l hl]
      exact H _ (List.getElem_mem hl)
  have := polyInterpolateLagrange_spec h pts (fun i j hij hj e => by
    rw [xOf, xOf, hget i (by omega), hget j hj] at e
    have h2 := (List.Nodup.getElem_inj_iff hinj (i := i) (j := j) (hi := by simp; omega) (hj := by simpa using hj)).1 (by simpa using e)
    omega)
  simpa only [hall] using this

/-- C60: over a field there always is one. -/
theorem C60_lagrange_field {α F : Type} [Field F] {S : DomainOps α} {v : α → F} (h : S.Models v) (pts : List (α × α))
    (hinj : (pts.map fun q => v q.1).Nodup) :
    ∃ f, S.polyInterpolateLagrange pts = some (some f) ∧ (polyVal v f).degree < pts.length ∧
      ∀ q ∈ pts, (polyVal v f).eval (v q.1) = v q.2 := by
  classical
  rcases C60_lagrange h pts hinj with h1 | ⟨-, h2⟩
  · exact h1
  · exfalso
    apply h2
    have hinj' : Set.InjOn (fun i : Fin pts.length => v (pts[i]).1) (Finset.univ : Finset (Fin pts.length)) := by
      intro i _ j _ e
      ext
      exact (List.Nodup.getElem_inj_iff hinj (i := i) (j := j) (hi := by simp) (hj := by simp)).1 (by simpa using e)
    refine ⟨Lagrange.interpolate Finset.univ (fun i : Fin pts.length => v (pts[i]).1) (fun i => v (pts[i]).2), fun q hq => ?_⟩
    obtain ⟨i, hi, rfl⟩ := List.getElem_of_mem hq
    exact Lagrange.eval_interpolate_at_node (fun i : Fin pts.length => v (pts[i]).2) hinj' (Finset.mem_univ ⟨i, hi⟩)

/-- C60: a repeated first coordinate makes it panic (division by zero), even if the second coordinates agree. -/
theorem C60_lagrange_duplicate {α R : Type} [CommRing R] {S : DomainOps α} {v : α → R} (h : S.Models v) (pts : List (α × α))
    (hd : ¬ (pts.map fun q => v q.1).Nodup) : S.polyInterpolateLagrange pts = none := by
  rw [List.nodup_iff_getElem?_ne_getElem?] at hd
  push Not at hd
  obtain ⟨i, j, hij, hj, e⟩ := hd
  have hj' : j < pts.length := by simpa using hj
  refine polyInterpolateLagrange_dup h pts i j hij hj' ?_
  have hget (i : Nat) (hi : i < pts.length) : pts.getD i (S.zero, S.zero) = pts[i] := by simp [hi]
  rw [xOf, xOf, hget i (by omega), hget j hj']
  simpa [hj', show i < pts.length by omega] using e

/-! ## C61 -/

/-- C61: polynomials over a field are a Euclidean domain with the degree as norm; `quorem` is division with remainder and is
`None` only for the zero divisor; `gcd` and `xgcd` return a normalised gcd and Bézout coefficients. -/
theorem C61_field_poly {α F : Type} [Field F] {S : DomainOps α} {v : α → F} (h : S.Models v) :
    S.polyEuc.Models (polyVal v) ∧ S.polyBezout.Models (polyVal v) := ⟨h.polyEuc, h.polyEuc.bezout⟩

/-- C61: the gcd of two polynomials over a field that are not both zero is monic, divides both, and is a combination of them. -/
theorem C61_field_gcd_monic {α F : Type} [Field F] {S : DomainOps α} {v : α → F} (h : S.Models v) (a b : List α)
    (hab : ¬ (polyVal v a = 0 ∧ polyVal v b = 0)) :
    ∃ g, S.polyBezout.gcd a b = some g ∧ (polyVal v g).Monic ∧ polyVal v g ∣ polyVal v a ∧ polyVal v g ∣ polyVal v b ∧
      ∃ s t, polyVal v g = s * polyVal v a + t * polyVal v b := by
  obtain ⟨g, h1, h2, h3⟩ := h.polyEuc.bezout.gcd a b
  obtain ⟨g', s, t, -, k2, k3, -⟩ := h.polyEuc.bezout.xgcd a b
  have hg0 : polyVal v g ≠ 0 := fun e => hab ⟨zero_dvd_iff.1 (e ▸ h2.1 _ (by simp)), zero_dvd_iff.1 (e ▸ h2.1 _ (by simp))⟩
  refine ⟨g, h1, ?_, h2.1 _ (by simp), h2.1 _ (by simp), ?_⟩
  · obtain ⟨l, u, c, w, e1, e2, e3, e4, e5, e6⟩ := h.fieldFav.polyFactorFavAssoc_ne g hg0
    have e7 := h3 g _ w rfl e5
    have hl0 : v l ≠ 0 := by rw [e1]; exact leadingCoeff_ne_zero.2 hg0
    have : u = l := by
      have : S.fieldFav.factorFavAssoc l = some (l, S.one) := by
        simp only [DomainOps.fieldFav, if_neg (fun e => hl0 ((h.toSemi.isZero l).1 e))]
      rw [this] at e2
      simp only [Option.some.injEq, Prod.mk.injEq] at e2
      exact e2.1.symm
    rw [this, e7] at e6
    have h5 := congrArg leadingCoeff e6
    rw [leadingCoeff_mul, leadingCoeff_C, ← e1] at h5
    rw [Monic, ← e1]
    exact (mul_right_cancel₀ hl0 (by rw [one_mul]; exact h5)).symm
  · obtain ⟨d, hd⟩ : polyVal v g' ∣ polyVal v g := h2.2 _ fun x hx => k3.1 x hx
    exact ⟨d * polyVal v s, d * polyVal v t, by rw [hd, k2]; ring⟩

/-! ## C62 -/

/-- C62: `gcd_by_primitive_subresultant(a, b)` of two nonzero polynomials never panics and returns a primitive polynomial that
is the gcd up to a constant: multiplied by the gcd of all the coefficients it is a gcd of `a` and `b`. (With a zero argument it
returns the other one.) -/
theorem C62_gcd_primitive_partial {α R : Type} [CommRing R] {S : GcdOps α} {v : α → R} (h : S.Models v) (a b : List α) :
    (polyVal v a = 0 → S.polyGcdPrimSub a b = some b) ∧
    (polyVal v a ≠ 0 → polyVal v b = 0 → S.polyGcdPrimSub a b = some a) ∧
    (polyVal v a ≠ 0 → polyVal v b ≠ 0 → ∃ g, S.polyGcdPrimSub a b = some g ∧ (polyVal v g).IsPrimitive ∧
      ∀ c, IsGcdOf {r | ∃ i, r = (polyVal v a).coeff i ∨ r = (polyVal v b).coeff i} c →
        IsGcdOf {polyVal v a, polyVal v b} (C c * polyVal v g)) := by
  haveI := h.domain
  refine ⟨(polyGcdPrimSub_zero h a b).1, (polyGcdPrimSub_zero h a b).2, fun ha hb => ?_⟩
  obtain ⟨g, h1, h2, h3⟩ := polyGcdPrimSub_spec (K := FractionRing R) h a b ha hb
  exact ⟨g, h1, h2, fun c hc => h.gcd_of_span _ _ _ c h2 hc h3⟩

/-- C62: for primitive polynomials, or just when no nonunit divides all the coefficients of both, the result is a gcd. -/
theorem C62_gcd_primitive_args {α R : Type} [CommRing R] {S : GcdOps α} {v : α → R} (h : S.Models v) (a b : List α)
    (ha : (polyVal v a).IsPrimitive) (hb : polyVal v b ≠ 0) :
    ∃ g, S.polyGcdPrimSub a b = some g ∧ (polyVal v g).IsPrimitive ∧ IsGcdOf {polyVal v a, polyVal v b} (polyVal v g) := by
  haveI := h.domain
  obtain ⟨g, h1, h2, h3⟩ := (C62_gcd_primitive_partial h a b).2.2 ha.ne_zero hb
  refine ⟨g, h1, h2, ?_⟩
  have := h3 1 ⟨fun x _ => one_dvd x, fun d hd => (ha d ((C_dvd_iff_dvd_coeff _ _).2 fun i => hd _ ⟨i, Or.inl rfl⟩)).dvd⟩
  simpa using this

/-- C62: the common content is lost: over the integers the result for `2x` and `4x` is not a gcd of them. -/
theorem C62_gcd_primitive_wrong : ∃ (a b g : List Int), polyVal (id : Int → Int) a = C 2 * X ∧ polyVal (id : Int → Int) b = C 4 * X ∧
    intOps.bezout.polyGcdPrimSub a b = some g ∧
    ¬ IsGcdOf {polyVal (id : Int → Int) a, polyVal (id : Int → Int) b} (polyVal (id : Int → Int) g) := by
  have ha : polyVal (id : Int → Int) [0, 2] = C 2 * X := by simp; ring
  have hb : polyVal (id : Int → Int) [0, 4] = C 4 * X := by simp; ring
  obtain ⟨g, h1, h2, -⟩ := (C62_gcd_primitive_partial intOps_models.bezout.toGcd [0, 2] [0, 4]).2.2
    (by rw [ha]; exact mul_ne_zero (C_ne_zero.2 (by norm_num)) X_ne_zero)
    (by rw [hb]; exact mul_ne_zero (C_ne_zero.2 (by norm_num)) X_ne_zero)
  refine ⟨_, _, g, ha, hb, h1, fun hg => ?_⟩
  have hd : (C 2 : Int[X]) ∣ polyVal (id : Int → Int) g := hg.2 _ (by
    intro x hx
    rw [ha, hb] at hx
    rcases hx with rfl | rfl
    · exact dvd_mul_right _ _
    · exact ⟨C 2 * X, by rw [← mul_assoc, ← C_mul]; norm_num⟩)
  have := h2 2 hd
  rw [Int.isUnit_iff] at this
  omega

/-! ## C63 -/

/-- C63: over a gcd domain of characteristic zero `primitive_squarefree_part(f)` of a nonzero `f` never panics (the division is
exact) and returns a primitive squarefree divisor of `f` with the same irreducible factors of positive degree; zero is returned
unchanged. -/
theorem C63_primitive_squarefree_part {α R : Type} [CommRing R] [CharZero R] {S : GcdOps α} {v : α → R} (h : S.Models v)
    (f : List α) :
    (polyVal v f = 0 → S.polyPrimSquarefreePart f = some f) ∧
    (polyVal v f ≠ 0 → ∃ q, S.polyPrimSquarefreePart f = some q ∧ (polyVal v q).IsPrimitive ∧ Squarefree (polyVal v q) ∧
      ∀ π : R[X], Irreducible π → 0 < π.natDegree → (π ∣ polyVal v q ↔ π ∣ polyVal v f)) := by
  refine ⟨polyPrimSquarefreePart_zero h f, fun hf => ?_⟩
  obtain ⟨q, h1, h2, h3, h4, h5⟩ := polyPrimSquarefreePart_spec h f hf
  exact ⟨q, h1, h2, h3, fun π hπ hpos => ⟨fun hd => hd.trans h4, h5 π hπ hpos⟩⟩

/-! ## C64 -/

/-- C64: `factor_primitive_fof(p)` of a nonzero polynomial over the field of fractions of a gcd domain never panics and returns
`(c, q)` with `p = c q` and `q` primitive over the gcd domain. -/
theorem C64_factor_primitive_fof_partial {α β K R : Type} [Field K] [CommRing R] [Algebra R K] [IsFractionRing R K]
    {S : DomainOps α} {B : GcdOps β} {v : α → K} {w : β → R} {fromBase : β → α} {num den : α → β}
    (hS : S.Models v) (hB : B.Models w) (hF : FofModels fromBase num den v w) (p : List α) (hp : polyVal v p ≠ 0) :
    ∃ c q, polyFactorPrimitiveFof S B fromBase num den p = some (c, q) ∧ v c ≠ 0 ∧ (polyVal w q).IsPrimitive ∧
      polyVal v p = C (v c) * (polyVal w q).map (algebraMap R K) := polyFactorPrimitiveFof_spec hS hB hF p hp

/-- C64: the zero polynomial makes it panic. -/
theorem C64_factor_primitive_fof_wrong {α β K R : Type} [Field K] [CommRing R] [Algebra R K] [IsFractionRing R K]
    {S : DomainOps α} {B : GcdOps β} {v : α → K} {w : β → R} {fromBase : β → α} {num den : α → β}
    (hS : S.Models v) (hB : B.Models w) (hF : FofModels fromBase num den v w) (p : List α) (hp : polyVal v p = 0) :
    polyFactorPrimitiveFof S B fromBase num den p = none := polyFactorPrimitiveFof_zero hS hB hF p hp

/-- C64: the rationals over the integers are such a field of fractions. -/
theorem C64_rat_fof : FofModels (fun z : Int => (z : ℚ)) ratNumerator ratDenominator (id : ℚ → ℚ) (id : Int → Int) := by
  have hn (x : ℚ) : ratNumerator x = x.num := by
    unfold ratNumerator
    split
    · rename_i h
      have := Rat.num_nonneg.2 h
      omega
    · rename_i h
      have := Rat.num_neg.2 (not_le.1 h)
      omega
  have hd (x : ℚ) : ratDenominator x = x.den := rfl
  refine ⟨fun b => rfl, fun x => ?_, fun x => ?_, fun x r e => ?_⟩
  · rw [hd]; simp
  · rw [hn, hd]; simp [Rat.mul_den_eq_num]
  · rw [hd]
    have e' : x = (r : ℚ) := e
    subst e'; simp

/-! ## Instances -/

theorem int_poly_ne (p : List Int) (hp : intOps.polyDegree p ≠ none) : polyVal (id : Int → Int) p ≠ 0 :=
  fun e => hp (intOps_models.toSemi.polyDegree_none p e)

theorem int_poly_degree (p : List Int) (n : Nat) (hp : intOps.polyDegree p = some n) : (polyVal (id : Int → Int) p).natDegree = n := by
  have := intOps_models.toSemi.polyDegree_some p (int_poly_ne p (by rw [hp]; simp))
  rw [hp] at this
  simpa using this.symm

example := C50_poly_ring intOps_models.toRing
example : intOps.polyMul [1, 1] [-1, 1, 0] = [-1, 0, 1] := by decide +kernel
example := C50_poly_reduced intOps_models.toSemi [1, 2, 0, 0] [3] 7
example := C51_evaluate_hom intOps_models.toSemi [1, 2, 3] [4, 5] 6
example : intOps.polyCompose [0, 0, 1] [1, 1] = [1, 2, 1] := by decide +kernel
example := (C52_degree intOps_models.toSemi [1, 2, 3, 0]).2.2 (int_poly_ne _ (by decide))
example : intOps.polyDerivative [5, 1, 2, 3, 0] = [1, 4, 9] := by decide +kernel
example : intOps.polyTryQuorem [1, 3, 3, 1] [2, 1] = some (.ok ([1, 1, 1], [-1])) := by decide +kernel
example : intOps.polyTryQuorem [0, 1] [1, 2] = some (.error .notDivisible) := by decide +kernel
example := C53_quorem_unique intOps_models.toDomain [1, 3, 3, 1] [2, 1] [1, 1, 1] [-1] (by decide +kernel)
example := (C54_pseudorem intOps_models.toDomain [1, 3, 3, 1] [2, 3]).2.2 (int_poly_ne _ (by decide))
  (by rw [degree_eq_natDegree (int_poly_ne _ (by decide)), degree_eq_natDegree (int_poly_ne _ (by decide)),
        int_poly_degree _ 1 (by decide), int_poly_degree _ 3 (by decide)]; norm_num)
example := (C55_poly_fav_assoc intOps_models.toFav).2 [4, -2] (int_poly_ne _ (by decide))
example := (C55_factor_primitive intOps_models.bezout.toGcd [4, 6, -10]).2 (int_poly_ne _ (by decide))
example := C55_all_units (id : Int → Int) [1, -1] (by intro r; simp [Int.isUnit_iff, eq_comm])
example := C56_subresultant_gcd_partial (K := ℚ) intOps_models.toDomain [-1, 0, 4] [1, 3, 2]
  (fun e => int_poly_ne _ (by decide) e.1)
example := (C57_resultant_partial intOps_models.toDomain [1, 2, 3] [4, 5]).2 (int_poly_ne _ (by decide)) (int_poly_ne _ (by decide))
example := C57_resultant_eq_zero (K := ℚ) intOps_models.toDomain [1, 2, 3] [4, 5] (int_poly_ne _ (by decide))
  (int_poly_ne _ (by decide))
example := (C58_discriminant_partial intOps_models.toDomain [1, 5, 3]).2 (by rw [int_poly_degree _ 2 (by decide)]; norm_num)
example := C58_discriminant_any_char_partial intOps_models.toDomain [1, 5, 3] (by rw [int_poly_degree _ 2 (by decide)]; norm_num)
  (Or.inl (by rw [int_poly_degree _ 2 (by decide)]; norm_num))
example := C59_is_squarefree_partial (K := ℚ) intOps_models.toDomain [1, 2, 1] (int_poly_ne _ (by decide))
example := C60_lagrange intOps_models.toDomain [(0, 1), (2, 5), (3, -1)] (by decide)
example := C60_lagrange_field ratOps_models [(0, 1), (2, 5), (3, -1)] (by norm_num)
example := C60_lagrange_duplicate intOps_models.toDomain [(0, 1), (2, 5), (0, 1)] (by decide)
example := C61_field_poly ratOps_models
example := C61_field_gcd_monic ratOps_models [-1, 0, 4] [1, 3, 2] (fun e => by
  have h := e.1
  have := congrArg (Polynomial.eval 0) h
  norm_num at this)
example := (C62_gcd_primitive_partial intOps_models.bezout.toGcd [-2, 0, 8] [2, 6, 4]).2.2 (int_poly_ne _ (by decide))
  (int_poly_ne _ (by decide))
example := (C63_primitive_squarefree_part intOps_models.bezout.toGcd [2, 4, 2]).2 (int_poly_ne _ (by decide))
example := C64_factor_primitive_fof_partial ratOps_models intOps_models.bezout.toGcd C64_rat_fof [1 / 2, 2 / 3] (fun e => by
  have := congrArg (Polynomial.eval 0) e
  norm_num at this)

end Verif.Rings
