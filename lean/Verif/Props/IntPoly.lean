import Verif.Proofs.BzWrong
import Verif.Proofs.BzNaive
import Verif.Proofs.YunAssoc
import Verif.Props.PolyFactor
import Verif.Props.FinitePoly
import Mathlib.Algebra.Polynomial.SpecificDegree

/-!
# Properties of polynomials with integer coefficients

Bounds for coefficients of factors and for roots, and factoring by the Berlekamp–Zassenhaus algorithm. `polyVal id f` is the
polynomial with the coefficient list `f`. A stream of random elements for a prime `p` is fair when every finite sequence of residues
modulo `p` turns up in it (`FairStream`, Spec/FinitePoly).
-/

namespace Verif.Rings

open Polynomial

/-! ## C96: bound for the coefficients of factors -/

/-- `mignotte_factor_coefficient_bound` never panics and returns `None` exactly for the zero polynomial. -/
theorem C96_mignotte_none (f : List Int) : mignotteBound f = some none ↔ polyVal (id : Int → Int) f = 0 := by
  constructor
  · intro h
    by_contra hf
    rw [mignotteBound_some f hf] at h
    cases h
  · exact mignotteBound_none f

/-- For a nonzero polynomial it returns a number that bounds the absolute value of every coefficient of every factor. -/
theorem C96_mignotte (f : List Int) (hf : polyVal (id : Int → Int) f ≠ 0) :
    ∃ B : ℕ, mignotteBound f = some (some B) ∧ ∀ g : ℤ[X], g ∣ polyVal (id : Int → Int) f → ∀ i, |g.coeff i| ≤ B := by
  refine ⟨_, mignotteBound_some f hf, ?_⟩
  rintro g ⟨h, e⟩ i
  have h1 := mahler_factor _ g h hf e i
  have hh : h ≠ 0 := by rintro rfl; rw [mul_zero] at e; exact hf e
  have hg : g ≠ 0 := by rintro rfl; rw [zero_mul] at e; exact hf e
  have h2 : 1 ≤ h.leadingCoeff.natAbs := Int.natAbs_pos.2 (leadingCoeff_ne_zero.2 hh)
  have h3 : g.natDegree ≤ (polyVal (id : Int → Int) f).natDegree := by rw [e, natDegree_mul hg hh]; omega
  have h4 := choose_middle_mono h3
  rw [← Int.natCast_natAbs]
  norm_cast
  calc (g.coeff i).natAbs ≤ h.leadingCoeff.natAbs * (g.coeff i).natAbs := Nat.le_mul_of_pos_left _ h2
    _ = (h.leadingCoeff * g.coeff i).natAbs := (Int.natAbs_mul _ _).symm
    _ ≤ _ := h1
    _ ≤ _ := by rw [mul_comm]; exact Nat.mul_le_mul_left _ h4

/-- The hypothesis can be met: `x^3 - 1` has the factor `x^2 + x + 1`. -/
example : ∃ B : ℕ, mignotteBound [-1, 0, 0, 1] = some (some B) ∧ ∀ i, |(X ^ 2 + X + 1 : ℤ[X]).coeff i| ≤ B := by
  have e : polyVal (id : Int → Int) [-1, 0, 0, 1] = (X ^ 2 + X + 1) * (X - 1) := by simp [polyVal_cons]; ring
  obtain ⟨B, b1, b2⟩ := C96_mignotte [-1, 0, 0, 1] (int_poly_ne _ (by decide))
  exact ⟨B, b1, b2 _ ⟨_, e⟩⟩

/-! ## C97: bound for the roots -/

/-- `cauchys_root_bound` never panics and returns `None` exactly for the constant polynomials. -/
theorem C97_cauchy_none (f : List Int) : cauchyRootBound f = some none ↔ (polyVal (id : Int → Int) f).natDegree = 0 := by
  constructor
  · intro h
    by_contra hf
    obtain ⟨B, b1, -⟩ := cauchyRootBound_some f (Nat.pos_of_ne_zero hf)
    rw [b1] at h
    cases h
  · exact cauchyRootBound_none f

/-- For a polynomial that is not constant it returns a number greater than the absolute value of every complex root. -/
theorem C97_cauchy (f : List Int) (hf : (polyVal (id : Int → Int) f).natDegree ≠ 0) :
    ∃ B : ℚ, cauchyRootBound f = some (some B) ∧ ∀ z : ℂ, ((polyVal (id : Int → Int) f).map (Int.castRingHom ℂ)).IsRoot z → ‖z‖ < B := by
  obtain ⟨B, b1, b2, b3⟩ := cauchyRootBound_some f (Nat.pos_of_ne_zero hf)
  exact ⟨B, b1, root_bound _ (fun e => hf (by rw [e]; rfl)) B b3 b2⟩

example : (polyVal (id : Int → Int) [-1, 0, 0, 1]).natDegree ≠ 0 := by
  have e : polyVal (id : Int → Int) [-1, 0, 0, 1] = X ^ 3 - C 1 := by simp [polyVal_cons]; ring
  rw [e, natDegree_X_pow_sub_C]; norm_num

/-! ## C98: factoring integer polynomials -/

section
variable {factor : Int → Option (Option (Factored Int))} (hf : (intUfd factor).Models (id : Int → Int))
  {rand : Nat → Nat → Int} (hr : ∀ p : ℕ, p.Prime → FairStream (fun a : Int => (a : ZMod (p : ℤ).natAbs)) (rand p))
include hf hr

/-- `factor` of integer polynomials (the Berlekamp–Zassenhaus algorithm) returns `None` for the zero polynomial; for every other
polynomial whose degree fits in a machine word, and for all fair sequences of random elements, it terminates without panicking and returns
pairwise different, normalised irreducible polynomials whose product with the returned unit is the polynomial or its opposite. What is missing: that it
is the polynomial, which fails (`C98_bz_wrong`, `C98_bz_square_wrong`). -/
theorem C98_bz_partial :
    (∀ f, polyVal (id : Int → Int) f = 0 → bzFactorize factor rand f = some none) ∧
    ∀ f, polyVal (id : Int → Int) f ≠ 0 → (polyVal (id : Int → Int) f).natDegree < machineRange →
      ∃ r, bzFactorize factor rand f = some (some r) ∧ r.Valid intOps.toFavOps.poly (polyVal (id : Int → Int)) ∧
        (r.denote (polyVal (id : Int → Int)) = polyVal (id : Int → Int) f ∨
          r.denote (polyVal (id : Int → Int)) = -polyVal (id : Int → Int) f) := by
  refine ⟨fun f h0 => ?_, fun f h0 hlt => ?_⟩
  · rw [bzFactorize, if_pos ((intOps_models.toSemi.poly.isZero f).2 h0)]
  · obtain ⟨r, r1, r2, r3⟩ := factorizeYun_assoc hf hf.polyGcdPrimSub_prim (D := (polyVal (id : Int → Int) f).natDegree)
      (sq := bzSqfree factor rand) (fun a ha hs hd => by
        obtain ⟨r, r1, r2, r3, -⟩ := bzSqfree_spec hf hr a ha hs (by omega)
        exact ⟨r, r1, r2, r3⟩) f h0 le_rfl
    refine ⟨r, ?_, r2, ?_⟩
    · rw [bzFactorize, if_neg (fun e => h0 ((intOps_models.toSemi.poly.isZero f).1 e))]
      exact congrArg (Option.map some) r1
    · obtain ⟨u, hu⟩ := r3
      obtain ⟨c, hc, e⟩ := Polynomial.isUnit_iff.1 u.isUnit
      rcases Int.isUnit_iff.1 hc with rfl | rfl
      · left; rw [← hu, ← e]; simp
      · right; rw [← hu, ← e]; simp

/-- On primitive squarefree polynomials the algorithm given to Yun's method is exact if the leading coefficient is positive or the
polynomial is irreducible. What is missing: the others (`C98_squarefree_wrong`). -/
theorem C98_squarefree_partial (f : List Int) (hp : (polyVal (id : Int → Int) f).IsPrimitive) (hs : Squarefree (polyVal (id : Int → Int) f))
    (hlt : (polyVal (id : Int → Int) f).natDegree < machineRange) :
    ∃ r, bzSqfree factor rand f = some r ∧ r.Valid intOps.toFavOps.poly (polyVal (id : Int → Int)) ∧
      Associated (r.denote (polyVal (id : Int → Int))) (polyVal (id : Int → Int) f) ∧
      (0 < (polyVal (id : Int → Int) f).leadingCoeff ∨ Irreducible (polyVal (id : Int → Int) f) →
        r.denote (polyVal (id : Int → Int)) = polyVal (id : Int → Int) f) := by
  obtain ⟨r, r1, r2, r3, r4, r5, -⟩ := bzSqfree_spec hf hr f hp hs hlt
  exact ⟨r, r1, r2, r3, fun h => h.elim r4 r5⟩

/-- If the leading coefficient is negative and the polynomial splits into an even number, at least four, of different linear factors, the
product of the result is always the opposite of the polynomial. -/
theorem C98_squarefree_wrong (f : List Int) (hp : (polyVal (id : Int → Int) f).IsPrimitive) (hs : Squarefree (polyVal (id : Int → Int) f))
    (hlt : (polyVal (id : Int → Int) f).natDegree < machineRange) (hneg : (polyVal (id : Int → Int) f).leadingCoeff < 0)
    (hlin : ∀ q, Irreducible q → q ∣ polyVal (id : Int → Int) f → q.natDegree = 1) (hev : Even (polyVal (id : Int → Int) f).natDegree)
    (h4 : 4 ≤ (polyVal (id : Int → Int) f).natDegree) :
    ∃ r, bzSqfree factor rand f = some r ∧ r.denote (polyVal (id : Int → Int)) = -polyVal (id : Int → Int) f := by
  obtain ⟨r, r1, -, -, -, -, r2⟩ := bzSqfree_spec hf hr f hp hs hlt
  exact ⟨r, r1, r2 hneg hlin hev h4⟩

/-- `factor` of `x (x - 1) (x + 1) (x - 2) (x + 2) (x + 3)` returns a factorization of the opposite polynomial. -/
theorem C98_bz_wrong : polyVal (id : Int → Int) [0, 12, 4, -15, -5, 3, 1] = X * (X - 1) * (X + 1) * (X - 2) * (X + 2) * (X + 3) ∧
    ∃ r, bzFactorize factor rand [0, 12, 4, -15, -5, 3, 1] = some (some r) ∧
      r.denote (polyVal (id : Int → Int)) = -(X * (X - 1) * (X + 1) * (X - 2) * (X + 2) * (X + 3)) := by
  have e : polyVal (id : Int → Int) [0, 12, 4, -15, -5, 3, 1] = X * (X - 1) * (X + 1) * (X - 2) * (X + 2) * (X + 3) := by
    simp [polyVal_cons]; ring
  obtain ⟨r, r1, r2⟩ := bzBad_run hf hr
  exact ⟨e, r, r1, by rw [r2, bzBad, e]⟩

/-- `factor` of `(x^2 - x - 1)^2` returns a factorization of the opposite polynomial. -/
theorem C98_bz_square_wrong : polyVal (id : Int → Int) [1, 2, -1, -2, 1] = (X ^ 2 - X - 1) ^ 2 ∧
    ∃ r, bzFactorize factor rand [1, 2, -1, -2, 1] = some (some r) ∧
      r.denote (polyVal (id : Int → Int)) = -(X ^ 2 - X - 1) ^ 2 := by
  have e : polyVal (id : Int → Int) [1, 2, -1, -2, 1] = (X ^ 2 - X - 1) ^ 2 := by
    simp [polyVal_cons]; ring
  have hirr : Irreducible (polyVal (id : Int → Int) [1, 1, -1]) := by
    rw [yunBad_poly, neg_eq_neg_one_mul]
    have hm := yunBad_monic
    have hd : (X ^ 2 - X - 1 : ℤ[X]).natDegree = 2 := by
      rw [show (X ^ 2 - X - 1 : ℤ[X]) = X ^ 2 - (X + C 1) by simp; ring]
      rw [natDegree_sub_eq_left_of_natDegree_lt] <;> rw [natDegree_X_pow]
      rw [natDegree_X_add_C]; norm_num
    refine (associated_unit_mul_left (X ^ 2 - X - 1 : ℤ[X]) (-1) isUnit_one.neg).symm.irreducible ?_
    rw [Monic.irreducible_iff_roots_eq_zero_of_degree_le_three hm (by omega) (by omega)]
    refine Multiset.eq_zero_of_forall_notMem fun a ha => ?_
    rw [mem_roots hm.ne_zero, IsRoot.def] at ha
    simp at ha
    have : (a * a - a) % 2 = 0 := by
      rcases Int.emod_two_eq_zero_or_one a with h | h <;> simp [Int.sub_emod, Int.mul_emod, h]
    have : a ^ 2 = a * a := by ring
    omega
  obtain ⟨r, r1, r2⟩ := yunBad_run hf (sq := bzSqfree factor rand) (fun a ha hp hs => by
    simp only [List.mem_cons, List.not_mem_nil, or_false] at ha
    rcases ha with rfl | rfl
    · obtain ⟨r, r1, r2, r3, r4, -⟩ := bzSqfree_spec hf hr [1] hp hs (by simp [polyVal_cons, machineRange])
      exact ⟨r, r1, r2, r4 (by simp [polyVal_cons])⟩
    · obtain ⟨r, r1, r2, r3, r4, r5, -⟩ := bzSqfree_spec hf hr [1, 1, -1] hp hs (by
        rw [yunBad_poly, natDegree_neg]
        refine lt_of_le_of_lt (natDegree_sub_le _ _) ?_
        have : (X ^ 2 - X : ℤ[X]).natDegree ≤ 2 := by
          refine (natDegree_sub_le _ _).trans ?_
          simp
        simp [machineRange]
        omega)
      exact ⟨r, r1, r2, r5 hirr⟩)
  refine ⟨e, r, ?_, by rw [r2, yunBad, e]⟩
  rw [bzFactorize, if_neg (by decide +kernel)]
  exact congrArg (Option.map some) r1

/-! ## C99: the naive version -/

/-- The naive version of the Berlekamp–Zassenhaus algorithm returns `None` for the zero polynomial; for every other polynomial and for all
fair sequences of random elements it terminates without panicking and returns a valid factorization of an associate of the polynomial, and of the polynomial
itself when no square of a nonconstant polynomial divides it. What is missing: the sign for the other polynomials (`C99_naive_wrong`). -/
theorem C99_naive_partial :
    (∀ f, polyVal (id : Int → Int) f = 0 → bzNaiveFactorize factor rand f = some none) ∧
    FactorsUpToUnit intOps.toFavOps (id : Int → Int) (bzNaiveFactorize factor rand) := by
  refine ⟨fun f h0 => ?_, fun f h0 => ?_⟩
  · rw [bzNaiveFactorize, if_pos ((intOps_models.toSemi.poly.isZero f).2 h0)]
  · obtain ⟨r, r1, r2⟩ := C88_yun_partial hf hf.polyGcdPrimSub_prim (bzNaiveSqfree_spec hf hr) f h0
    refine ⟨r, ?_, r2⟩
    rw [bzNaiveFactorize, if_neg (fun e => h0 ((intOps_models.toSemi.poly.isZero f).1 e))]
    exact congrArg (Option.map some) r1

/-- The search behind it is exact: on a primitive squarefree polynomial that is not a unit it answers "irreducible" for the irreducible
ones and returns a proper factorization of the others. -/
theorem C99_find_factor (f : List Int) (hp : (polyVal (id : Int → Int) f).IsPrimitive) (hs : Squarefree (polyVal (id : Int → Int) f))
    (hu : ¬ IsUnit (polyVal (id : Int → Int) f)) :
    (bzNaiveFindFactor factor rand f = some .irreducible ∧ Irreducible (polyVal (id : Int → Int) f)) ∨
    ∃ g k, bzNaiveFindFactor factor rand f = some (.composite g k) ∧
      polyVal (id : Int → Int) f = polyVal (id : Int → Int) g * polyVal (id : Int → Int) k ∧
      ¬ IsUnit (polyVal (id : Int → Int) g) ∧ ¬ IsUnit (polyVal (id : Int → Int) k) := by
  obtain ⟨r, r1, r2⟩ := bzNaiveFindFactor_spec hf hr f hp hs hu
  cases r with
  | irreducible => exact Or.inl ⟨r1, r2⟩
  | composite g k => exact Or.inr ⟨g, k, r1, r2⟩

/-- The naive version factors `(x^2 - x - 1)^2` as its opposite. -/
theorem C99_naive_wrong : polyVal (id : Int → Int) [1, 2, -1, -2, 1] = (X ^ 2 - X - 1) ^ 2 ∧
    ∃ r, bzNaiveFactorize factor rand [1, 2, -1, -2, 1] = some (some r) ∧
      r.denote (polyVal (id : Int → Int)) = -(X ^ 2 - X - 1) ^ 2 := by
  obtain ⟨e, r, r1, r2⟩ := C88_yun_wrong hf (bzNaiveSqfree_spec hf hr)
  refine ⟨e, r, ?_, r2⟩
  rw [bzNaiveFactorize, if_neg (by decide +kernel)]
  exact congrArg (Option.map some) r1

/-! ## C100: factoring rational polynomials -/

/-- `factor` of rational polynomials: for every nonzero polynomial whose degree fits in a machine word, and for all fair sequences of random
elements, it terminates without panicking and returns pairwise different monic irreducible polynomials and a nonzero constant whose product is a constant
multiple of the polynomial. What is missing: that the constant is right, and the zero polynomial (`C100_rat_wrong`, `C100_rat_zero_wrong`). -/
theorem C100_rat_partial (f : List ℚ) (h0 : polyVal (id : ℚ → ℚ) f ≠ 0) (hlt : (polyVal (id : ℚ → ℚ) f).natDegree < machineRange) :
    ∃ r, polyFactorizeByPrimitive ratOps intOps.bezout.toGcdOps (fun z : Int => (z : ℚ)) ratNumerator ratDenominator
        (bzFactorize factor rand) f = some (some r) ∧
      r.Valid ratOps.fieldFav.poly (polyVal (id : ℚ → ℚ)) ∧
      ∃ c : ℚ, c ≠ 0 ∧ r.denote (polyVal (id : ℚ → ℚ)) = C c * polyVal (id : ℚ → ℚ) f := by
  obtain ⟨r, r1, r2, r3⟩ := fof_associated ratOps_models intOps_models.bezout.toGcd C64_rat_fof (baseFactor := bzFactorize factor rand) f h0
    (fun q hq hd => by
      obtain ⟨r, r1, r2, r3⟩ := (C98_bz_partial hf hr).2 q hq.ne_zero (by omega)
      refine ⟨r, r1, r2, ?_⟩
      rcases r3 with e | e
      · rw [e]
      · rw [e]; exact Associated.neg_left (Associated.refl _))
  refine ⟨r, r1, r2, ?_⟩
  obtain ⟨u, hu⟩ := r3.symm
  obtain ⟨c, hc, e⟩ := Polynomial.isUnit_iff.1 u.isUnit
  exact ⟨c, hc.ne_zero, by rw [← hu, ← e, mul_comm]⟩

/-- The product of the factorization of `(2x + 1)^2` is `(2x + 1)^2 / 2` or its opposite. -/
theorem C100_rat_wrong : polyVal (id : ℚ → ℚ) [1, 4, 4] = (2 * X + 1) ^ 2 ∧
    ∃ r, polyFactorizeByPrimitive ratOps intOps.bezout.toGcdOps (fun z : Int => (z : ℚ)) ratNumerator ratDenominator
      (bzFactorize factor rand) [1, 4, 4] = some (some r) ∧
      (2 * r.denote (polyVal (id : ℚ → ℚ)) = (2 * X + 1) ^ 2 ∨ 2 * r.denote (polyVal (id : ℚ → ℚ)) = -(2 * X + 1) ^ 2) := by
  obtain ⟨e, s, s1, -, r, r1, r2⟩ := fof_bad_assoc (P := fun _ => True) (baseFactor := bzFactorize factor rand) (fun q hq hd => by
    obtain ⟨pf, p1, p2, p3⟩ := (C98_bz_partial hf hr).2 q hq.ne_zero (by rw [hd]; norm_num [machineRange])
    rcases p3 with p3 | p3
    · exact ⟨pf, p1, p2, 1, isUnit_one, trivial, by rw [p3]; simp⟩
    · exact ⟨pf, p1, p2, -1, isUnit_one.neg, trivial, by rw [p3]; simp⟩)
  refine ⟨e, r, r1, ?_⟩
  rcases Int.isUnit_iff.1 s1 with rfl | rfl
  · left; rw [r2]; simp
  · right; rw [r2]; simp

omit hf hr in
/-- `factor` of the zero polynomial with rational coefficients panics instead of returning `None`. -/
theorem C100_rat_zero_wrong (f : List ℚ) (h0 : polyVal (id : ℚ → ℚ) f = 0) :
    polyFactorizeByPrimitive ratOps intOps.bezout.toGcdOps (fun z : Int => (z : ℚ)) ratNumerator ratDenominator
      (bzFactorize factor rand) f = none :=
  C90_zero_wrong ratOps_models intOps_models.bezout.toGcd C64_rat_fof _ f h0

end

/-! ## The hypotheses can be met -/

/-- There are fair sequences of random elements for all primes. -/
theorem exists_fair : ∃ rand : Nat → Nat → Int, ∀ p : ℕ, p.Prime → FairStream (fun a : Int => (a : ZMod (p : ℤ).natAbs)) (rand p) := by
  have : ∀ p : ℕ, ∃ r : Nat → Int, p.Prime → FairStream (fun a : Int => (a : ZMod (p : ℤ).natAbs)) r := by
    intro p
    by_cases hp : p.Prime
    · haveI : NeZero ((p : ℤ).natAbs) := ⟨by simpa using hp.ne_zero⟩
      obtain ⟨r, hr⟩ := exists_fairStream (fun a : Int => (a : ZMod (p : ℤ).natAbs)) ZMod.intCast_surjective
      exact ⟨r, fun _ => hr⟩
    · exact ⟨fun _ => 0, fun h => absurd h hp⟩
  choose rand h using this
  exact ⟨rand, h⟩

/-- `C98` and `C99` apply to the integers. -/
example : ∃ factor rand r, bzFactorize factor rand [-6, 0, 0, 2, 0, 12, 4] = some (some r) ∧
    r.Valid intOps.toFavOps.poly (polyVal (id : Int → Int)) := by
  obtain ⟨factor, h⟩ := exists_intUfd
  obtain ⟨rand, hr⟩ := exists_fair
  have hne := int_poly_ne [-6, 0, 0, 2, 0, 12, 4] (by decide)
  obtain ⟨r, r1, r2, -⟩ := (C98_bz_partial h hr).2 [-6, 0, 0, 2, 0, 12, 4] hne (by
    have h1 := intOps_models.toSemi.polyDegree_some _ hne
    have h2 : intOps.polyDegree [-6, 0, 0, 2, 0, 12, 4] = some 6 := by decide +kernel
    rw [h2] at h1
    rw [← Option.some.inj h1]; norm_num [machineRange])
  exact ⟨factor, rand, r, r1, r2⟩

example : ∃ factor rand r, bzNaiveFactorize factor rand [-6, 0, 0, 2, 0, 12, 4] = some (some r) ∧
    r.Valid intOps.toFavOps.poly (polyVal (id : Int → Int)) := by
  obtain ⟨factor, h⟩ := exists_intUfd
  obtain ⟨rand, hr⟩ := exists_fair
  obtain ⟨r, r1, r2, -⟩ := (C99_naive_partial h hr).2 [-6, 0, 0, 2, 0, 12, 4] (int_poly_ne _ (by decide))
  exact ⟨factor, rand, r, r1, r2⟩

/-- A polynomial that meets the hypotheses of `C98_squarefree_wrong`. -/
example : (polyVal (id : Int → Int) bzBadNeg).IsPrimitive ∧ Squarefree (polyVal (id : Int → Int) bzBadNeg) ∧
    (polyVal (id : Int → Int) bzBadNeg).leadingCoeff < 0 ∧
    (∀ q, Irreducible q → q ∣ polyVal (id : Int → Int) bzBadNeg → q.natDegree = 1) ∧
    (polyVal (id : Int → Int) bzBadNeg).natDegree = 6 := by
  refine ⟨?_, bzBad_squarefree, ?_, bzBad_linear, ?_⟩
  · rw [bzBad_neg]
    exact isPrim_of_dvd bzBad_monic.isPrimitive (neg_dvd.2 dvd_rfl)
  · rw [bzBad_neg, leadingCoeff_neg, bzBad_monic.leadingCoeff]; norm_num
  · rw [bzBad_neg, natDegree_neg, bzBad_degree]

end Verif.Rings
