import Verif.Model.NumberField
import Verif.Model.PolyFactor

/-!
# Factoring polynomials over number fields

Models `factor` of `PolynomialStructure<ANFStructure>` and the functions it uses, rings/src/number/anf/number_field.rs:170-216 and 399-776.
`none` is a panic or an endless loop; debug assertions are modelled as panics. The number field is given by its modulus `f`, a polynomial over
it by the list of its coefficients, and a coefficient by a rational polynomial. `ratFactor` is `factor` of `Polynomial<Rational>`. The random
elements of the search for a generator are given by an oracle `rng`.
-/

namespace Verif.Anf

open Verif.Rings

/-- The number field with modulus `f`. Models `ANFStructure` and `new_anf`, rings/src/number/anf/number_field.rs:14-18. -/
def anfOps (f : List ℚ) : DomainOps (List ℚ) := ratOps.polyEuc.quotientField f

/-- Its gcd and its `factor`, those of a field. Models rings/src/structure/structure.rs:654-678 for the number field. -/
def anfUfd (f : List ℚ) : UfdOps (List ℚ) where
  toGcdOps := (anfOps f).fieldEuc.bezout.toGcdOps
  factor := fieldFactor (anfOps f).fieldFav

/-- Models `double_poly_to_row`, rings/src/number/anf/number_field.rs:172-192. -/
def doublePolyToRow (outer inner : Nat) (a : List (List ℚ)) : Option (Mat ℚ) := do
  assertThat (decide (ratOps.toSemiRingOps.poly.polyNumCoeffs a ≤ outer))
  assertThat (a.all fun c => decide (ratOps.polyNumCoeffs c ≤ inner))
  Mat.fromRows [(List.range outer).flatMap fun i =>
    (List.range inner).map fun j => ratOps.polyCoeff (ratOps.toSemiRingOps.poly.polyCoeff a i) j]

/-- Models `row_to_double_poly`, rings/src/number/anf/number_field.rs:194-216. Popping the entries one after the other off the reversed row is
modelled by reading entry `i * inner + j`. -/
def rowToDoublePoly (outer inner : Nat) (m : Mat ℚ) : Option (List (List ℚ)) := do
  assertThat (m.cols == outer * inner)
  assertThat (m.rows == 1)
  (List.range outer).mapM fun i => (List.range inner).mapM fun j => m.get 0 (i * inner + j)

section Search
variable (f : List ℚ) (p : List (List ℚ)) (pDeg kDeg : Nat)

/-- `l_to_vec`. Models rings/src/number/anf/number_field.rs:460-462. -/
def lToVec (x : List (List ℚ)) : Option (Mat ℚ) := ((anfOps f).pqReduce p x).bind (doublePolyToRow pDeg kDeg)

/-- The powers `1, 1 * alpha, 1 * alpha * alpha, …`. Models rings/src/number/anf/number_field.rs:515-520. -/
def lPow (alpha : List (List ℚ)) : Nat → List (List ℚ)
  | 0 => ((anfOps f).pqRing p).one
  | k + 1 => ((anfOps f).pqRing p).mul (lPow alpha k) alpha

/-- `alpha_pow_mat`. Models rings/src/number/anf/number_field.rs:514-524. -/
def alphaPowMat (n : Nat) (alpha : List (List ℚ)) : Option (Mat ℚ) := do
  let rows ← (List.range n).mapM fun k => lToVec f p pDeg kDeg (lPow f p alpha k)
  Mat.joinRows n rows

/-- The random element `alpha`; `rng i j` is the random rational number for the coefficient `j` of coefficient `i`. Models
rings/src/number/anf/number_field.rs:484-508. -/
def randomAlpha (rng : Nat → Nat → ℚ) : List (List ℚ) := (List.range pDeg).map fun i => (List.range kDeg).map fun j => rng i j

/-- The search for a generator of `L` over the rational numbers: the generator and the matrix of its powers. Models
rings/src/number/anf/number_field.rs:470-539. -/
def alphaSearch (n : Nat) (rng : Nat → Nat → Nat → ℚ) (t : Nat) : Option (List (List ℚ) × Mat ℚ) := do
  let alpha := randomAlpha pDeg kDeg (rng t)
  let vec ← lToVec f p pDeg kDeg alpha
  let back ← rowToDoublePoly pDeg kDeg vec
  assertThat (((anfOps f).pqRing p).equal alpha back)
  let m ← alphaPowMat f p pDeg kDeg n alpha
  let r ← ratOps.fieldEuc.bezout.matRank m
  if r = n then some (alpha, m) else alphaSearch n rng (t + 1)
partial_fixpoint

/-- The entries of a row as the coefficients of a polynomial. Models rings/src/number/anf/number_field.rs:555-559 and 580-584. -/
def rowToPoly (n : Nat) (m : Mat ℚ) : Option (List ℚ) := (List.range n).mapM fun c => m.get 0 c

/-- `l_to_la`. Models rings/src/number/anf/number_field.rs:577-586. -/
def lToLa (n : Nat) (m : Mat ℚ) (x : List (List ℚ)) : Option (List ℚ) := do
  let vec ← lToVec f p pDeg kDeg x
  let s ← (ratOps.fieldEuc.bezout.rowSolve m vec).bind id
  rowToPoly n s

/-- The polynomial `q` with `q(alpha) = 0`, with the debug assertion. Models rings/src/number/anf/number_field.rs:550-569. -/
def alphaPoly (n : Nat) (alpha : List (List ℚ)) (m : Mat ℚ) : Option (List ℚ) := do
  let vec ← lToVec f p pDeg kDeg (((anfOps f).pqRing p).natPow alpha n)
  let s ← (ratOps.fieldEuc.bezout.rowSolve m vec).bind id
  let q' ← rowToPoly n s
  let q := ratOps.polyAdd (ratOps.polyVarPow n) (ratOps.polyNeg q')
  assertThat (((anfOps f).pqRing p).isZero (((anfOps f).pqRing p).polyEvaluate (q.map fun c => [[c]]) alpha))
  some q

end Search

section Reduced
variable (ratFactor : List ℚ → Option (Option (Factored (List ℚ)))) (f : List ℚ)

/-- `lai_basis`. Models rings/src/number/anf/number_field.rs:646-658. -/
def laiBasis (kDeg piDeg : Nat) (gen x qi : List ℚ) : List (List ℚ) :=
  (List.range piDeg).flatMap fun i => (List.range kDeg).map fun j =>
    (ratOps.pqRing qi).mul ((ratOps.pqRing qi).natPow x i) ((ratOps.pqRing qi).natPow gen j)

/-- The factor of `p` that belongs to the factor `qi` of `q`. Models rings/src/number/anf/number_field.rs:619-697. -/
def reducedFactor (kDeg : Nat) (gen x : List ℚ) (qp : List ℚ × Nat) : Option (List (List ℚ)) := do
  let qi := qp.1
  assertThat (qp.2 == 1)
  let irr ← isIrreducibleBy ratFactor qi
  assertThat irr
  assertThat (!ratOps.toSemiRingOps.poly.isZero qi)
  let qiDeg ← ratOps.pqDegree qi
  assertThat (qiDeg % kDeg == 0)
  let piDeg := qiDeg / kDeg
  let rows ← (laiBasis kDeg piDeg gen x qi).mapM (ratOps.pqToRow qi)
  let mat ← Mat.joinRows qiDeg rows
  let r ← ratOps.fieldEuc.bezout.matRank mat
  assertThat (r == qiDeg)
  let vec ← ratOps.pqToRow qi ((ratOps.pqRing qi).natPow x piDeg)
  let s ← (ratOps.fieldEuc.bezout.rowSolve mat vec).bind id
  let pi' ← rowToDoublePoly piDeg kDeg s
  some ((anfOps f).polyAdd ((anfOps f).polyVarPow piDeg) (pi'.map ratOps.polyNeg))

/-- The case of a number field of degree one. Models rings/src/number/anf/number_field.rs:424-451. -/
def reducedRational (p : List (List ℚ)) : Option (Factored (List (List ℚ))) := do
  let cs ← p.mapM fun c => (ratOps.pqReduce f c).bind ratOps.polyAsConstant
  let r ← (ratFactor cs).bind id
  some ⟨polyConst r.unit, r.factors.map fun g => (g.1.map polyConst, g.2)⟩

/-- The case of a number field of degree at least two. Models rings/src/number/anf/number_field.rs:452-713. -/
def reducedGeneral (rng : Nat → Nat → Nat → Nat → Nat → ℚ) (kDeg : Nat) (p : List (List ℚ)) : Option (Factored (List (List ℚ))) := do
  assertThat (decide (2 ≤ kDeg))
  let pDeg ← (anfOps f).pqDegree p
  let n := kDeg * pDeg
  let am ← alphaSearch f p pDeg kDeg n (rng pDeg kDeg) 0
  let q ← alphaPoly f p pDeg kDeg n am.1 am.2
  let gen ← lToLa f p pDeg kDeg n am.2 (polyConst ratOps.polyVar)
  let x ← lToLa f p pDeg kDeg n am.2 (anfOps f).polyVar
  let r ← (ratFactor q).bind id
  let factors ← r.factors.mapM (reducedFactor ratFactor f kDeg gen x)
  some ⟨(anfOps f).toSemiRingOps.poly.one, factors.map fun g => (g, 1)⟩

/-- Models `factor_primitive_sqfree_by_reduced_ring`, rings/src/number/anf/number_field.rs:399-714. -/
def reducedRing (rng : Nat → Nat → Nat → Nat → Nat → ℚ) (p : List (List ℚ)) : Option (Factored (List (List ℚ))) := do
  assertThat (!(anfOps f).toSemiRingOps.poly.isZero p)
  let kDeg ← ratOps.pqDegree f
  if kDeg = 1 then reducedRational ratFactor f p else reducedGeneral ratFactor f rng kDeg p

/-- The loop of `factorize_rational_factorize_first`. Models rings/src/number/anf/number_field.rs:741-750. -/
def rationalLoop (factorize : List (List ℚ) → Option (Factored (List (List ℚ)))) (factored : Factored (List (List ℚ)))
    (g : List ℚ × Nat) : Option (Factored (List (List ℚ))) := do
  let h ← factorize (g.1.map polyConst)
  Factored.mul (anfUfd f).toFavOps.poly factored h

/-- Models `factorize_rational_factorize_first`, rings/src/number/anf/number_field.rs:717-752. -/
def rationalFirst (factorize : List (List ℚ) → Option (Factored (List (List ℚ)))) (p : List (List ℚ)) :
    Option (Factored (List (List ℚ))) := do
  assertThat (!(anfOps f).toSemiRingOps.poly.isZero p)
  match p.mapM ratOps.polyAsConstant with
  | none => factorize p
  | some cs => do
    let r ← (ratFactor cs).bind id
    r.factors.foldlM (rationalLoop f factorize) (Factored.factoredUnit (polyConst r.unit))

/-- Models `factor`, rings/src/number/anf/number_field.rs:754-776. -/
def anfFactor (rng : Nat → Nat → Nat → Nat → Nat → ℚ) (p : List (List ℚ)) : Option (Option (Factored (List (List ℚ)))) :=
  if (anfOps f).toSemiRingOps.poly.isZero p then some none
  else ((anfUfd f).factorizeYun (anfOps f).polyBezout.gcd (rationalFirst ratFactor f (reducedRing ratFactor f rng)) p).map some

end Reduced

end Verif.Anf
