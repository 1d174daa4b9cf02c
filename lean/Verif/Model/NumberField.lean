import Verif.Model.FinitePoly
import Verif.Model.Smith
import Verif.Model.Numbers
import Verif.Model.IntPoly

/-!
# Number fields

Models the first part of rings/src/number/anf/number_field.rs: algebraic number fields `ℚ[x]/(f)`, discriminants and integral bases.
An element is a rational polynomial (a list of coefficients), the field is given by its modulus `f`. `none` is a panic or an endless
loop; debug assertions are modelled as panics.
-/

namespace Verif.Rings

/-- Models `min_poly`, rings/src/polynomial/quotient.rs:68-72. -/
def DomainOps.pqMinPoly {α : Type} (S : DomainOps α) (modulus a : List α) : Option (List α) := do
  let m ← S.pqColMulMatrix modulus a
  unwrapMat (S.minimalPolynomial m)

/-- `is_zero` of the quotient: `equal(a, zero)`. Models rings/src/structure/quotient.rs:88-97 for polynomials. -/
def DomainOps.pqIsZero {α : Type} (S : DomainOps α) (modulus a : List α) : Option Bool := do
  let r ← S.pqReduce modulus (S.polyAdd a (S.polyNeg []))
  some (S.polyEqual r [])

end Verif.Rings

namespace Verif.Anf
open Verif.Rings

/-- `x.denominator_ref() == &Natural::ONE`. -/
def isInt (x : ℚ) : Bool := ratDenominator x == 1

/-- One entry of `trace_form_matrix`. Models rings/src/number/anf/number_field.rs:32. -/
def traceEntry (f : List ℚ) (elems : List (List ℚ)) (r c : Nat) : Option ℚ := do
  let x ← elems[r]?
  let y ← elems[c]?
  ratOps.pqTrace f (ratOps.polyMul x y)

/-- Models `trace_form_matrix`, rings/src/number/anf/number_field.rs:28-34. -/
def traceFormMatrix (f : List ℚ) (elems : List (List ℚ)) : Option (Mat ℚ) := do
  let n ← ratOps.pqDegree f
  assertThat (n == elems.length)
  Mat.construct n n (traceEntry f elems)

/-- Models `discriminant`, rings/src/number/anf/number_field.rs:36-38. -/
def discriminant (f : List ℚ) (elems : List (List ℚ)) : Option ℚ := do
  let m ← traceFormMatrix f elems
  unwrapMat (ratOps.fieldEuc.bezout.matDet m)

/-- Models `is_algebraic_integer`, rings/src/number/anf/number_field.rs:136-147. -/
def isAlgebraicInteger (f a : List ℚ) : Option Bool := do
  let t ← ratOps.pqTrace f a
  if isInt t then
    let n ← ratOps.pqNorm f a
    if isInt n then
      let m ← ratOps.pqMinPoly f a
      some (m.all isInt)
    else some false
  else some false

/-- Models `integral_multiple`, rings/src/number/anf/number_field.rs:149-161. -/
def integralMultiple (f a : List ℚ) : Option (List ℚ) := do
  let mp ← ratOps.pqMinPoly f a
  let m ← intOps.bezout.lcmList (mp.map ratDenominator)
  let b := ratOps.polyMul (polyConst (m : ℚ)) a
  let ok ← isAlgebraicInteger f b
  assertThat ok
  some b

/-- One summand of `alpha`. Models rings/src/number/anf/number_field.rs:84-87. -/
def alphaTerm (guess : List (List ℚ)) (coeffs : List Nat) (i : Nat) : Option (List ℚ) := do
  let c ← coeffs[i]?
  let g ← guess[i]?
  some (ratOps.polyMul (polyConst (c : ℚ)) g)

/-- `alpha = (coeffs_0 guess_0 + … + coeffs_{n-1} guess_{n-1}) / p`. Models rings/src/number/anf/number_field.rs:80-95. -/
def alphaOf (n p : Nat) (guess : List (List ℚ)) (coeffs : List Nat) : Option (List ℚ) := do
  let terms ← (List.range n).mapM (alphaTerm guess coeffs)
  some ((ratOps.poly.sum terms).map fun c => c / (p : ℚ))

/-- One entry of `guess_mat`. Models rings/src/number/anf/number_field.rs:103. -/
def guessEntry (guess : List (List ℚ)) (r c : Nat) : Option ℚ := (guess[r]?).map fun g => ratOps.polyCoeff g c

/-- Row `i` of the Hermite form as a field element. Models rings/src/number/anf/number_field.rs:118-122. -/
def rowElement (f : List ℚ) (mul : ℚ) (hnf : Mat Int) (i : Nat) : Option (List ℚ) := do
  let row ← hnf.getRow i
  ratOps.pqFromRow f (row.applyMap fun v => (v : ℚ) * mul)

/-- The new guess after `guess.push(alpha)`. Models rings/src/number/anf/number_field.rs:102-124. -/
def reduceGuess (f : List ℚ) (n : Nat) (guess : List (List ℚ)) : Option (List (List ℚ)) := do
  let guessMat ← Mat.construct (n + 1) n (guessEntry guess)
  let mp ← matFactorPrimitiveFof ratOps intOps.bezout.toGcdOps (fun z : Int => (z : ℚ)) ratNumerator ratDenominator guessMat
  let h ← intOps.rowReducedHermite mp.2.colsFlipped
  (List.range n).reverse.mapM (rowElement f mp.1 h.1.colsFlipped)

/-- The loop over the coefficient vectors: the first `alpha` that is a nonzero algebraic integer.
Models rings/src/number/anf/number_field.rs:79-102. -/
def searchCoeffs (f : List ℚ) (n p : Nat) (guess : List (List ℚ)) : List (List Nat) → Option (Option (List ℚ))
  | [] => some none
  | coeffs :: rest => do
    let alpha ← alphaOf n p guess coeffs
    let z ← ratOps.pqIsZero f alpha
    if z then searchCoeffs f n p guess rest
    else
      let ai ← isAlgebraicInteger f alpha
      if ai then some (some alpha) else searchCoeffs f n p guess rest

/-- The loop over the prime factors of the discriminant: the first `alpha` found, if any.
Models rings/src/number/anf/number_field.rs:72-79 and 129-131. -/
def searchPrimes (f : List ℚ) (n : Nat) (guess : List (List ℚ)) : List (Int × Nat) → Option (Option (List ℚ))
  | [] => some none
  | (p, k) :: rest => do
    assertThat (decide (0 ≤ p))
    let q ← natToUsize p.natAbs
    if 2 ≤ k then
      let found ← searchCoeffs f n q guess (Factored.multiCartesianProduct (List.replicate n (List.range q)))
      match found with
      | some alpha => some (some alpha)
      | none => searchPrimes f n guess rest
    else searchPrimes f n guess rest

/-- `disc_factors.sort_by_key(|(p, _k)| p.clone())`, a stable sort. Models rings/src/number/anf/number_field.rs:70. -/
def sortByPrime (l : List (Int × Nat)) : List (Int × Nat) := l.mergeSort fun a b => decide (a.1 ≤ b.1)

/-- One pass of the outer loop: `some none` when the guess is returned. Models rings/src/number/anf/number_field.rs:49-132 without the
new guess. `isPrime` is the primality test used by `factor`. -/
def searchStep (isPrime : Nat → Option Bool) (f : List ℚ) (n : Nat) (guess : List (List ℚ)) : Option (Option (List ℚ)) := do
  assertThat (guess.all fun g => decide (ratOps.polyNumCoeffs g ≤ n))
  let disc ← discriminant f guess
  assertThat (isInt disc)
  assertThat (ratNumerator disc != 0)
  let fac ← intFactor isPrime (ratNumerator disc)
  let fac ← fac
  searchPrimes f n guess (sortByPrime fac.factors)

/-- The loop `'search`. Models rings/src/number/anf/number_field.rs:48-133. -/
def searchLoop (isPrime : Nat → Option Bool) (f : List ℚ) (n : Nat) (guess : List (List ℚ)) : Option (List (List ℚ)) := do
  let found ← searchStep isPrime f n guess
  match found with
  | none => some guess
  | some alpha => do
    let guess ← reduceGuess f n (guess ++ [alpha])
    searchLoop isPrime f n guess
partial_fixpoint

/-- Models `compute_integral_basis`, rings/src/number/anf/number_field.rs:40-134. -/
def computeIntegralBasis (isPrime : Nat → Option Bool) (f : List ℚ) : Option (List (List ℚ)) := do
  let n ← ratOps.pqDegree f
  let guess ← (List.range n).mapM fun i => integralMultiple f (ratOps.polyVarPow i)
  searchLoop isPrime f n guess

end Verif.Anf
