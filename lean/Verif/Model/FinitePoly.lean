import Verif.Model.FiniteField
import Verif.Model.Factored
import Verif.Model.Polynomial
import Verif.Model.Lattice

/-!
# Factoring polynomials over finite fields

Models rings/src/number/finite_fields/polynomial.rs and the vector representation of quotients of polynomial rings
(rings/src/polynomial/quotient.rs). `none` is a panic or an endless loop; debug assertions are modelled as panics. The structure
pointers (`poly_ring`) stored in the Rust records are passed as the argument `F`. `usize` is `Nat` (the power `q^i` in a debug assertion
must fit into `usize` in the code).
-/

namespace Verif.Rings

section Quotient
variable {α : Type} (S : DomainOps α) (modulus : List α)

/-- Models `QuotientStructure::degree`, rings/src/polynomial/quotient.rs:16-18. -/
def DomainOps.pqDegree : Option Nat := S.polyDegree modulus

/-- `reduce` of the quotient of a polynomial ring. Models rings/src/structure/quotient.rs:27-29 for polynomials. -/
def DomainOps.pqReduce (a : List α) : Option (List α) := S.polyEuc.rem a modulus

/-- The ring operations of a quotient of a polynomial ring. Models rings/src/structure/quotient.rs:88-131 for polynomials. -/
def DomainOps.pqRing : RingOps (List α) := S.polyEuc.quotientRing modulus

/-- `while coeffs.len() < deg { coeffs.push(zero) }`. Models rings/src/polynomial/quotient.rs:32-34. -/
def SemiRingOps.padZeros {α : Type} (S : SemiRingOps α) (deg : Nat) (coeffs : List α) : List α :=
  coeffs ++ List.replicate (deg - coeffs.length) S.zero

/-- One column of `col_multiplication_matrix`, with its debug assertion. Models rings/src/polynomial/quotient.rs:28-36. -/
def DomainOps.pqMulCol (deg : Nat) (a : List α) (i : Nat) : Option (List α) := do
  let coeffs ← S.pqReduce modulus (S.polyMul a (S.polyVarPow i))
  assertThat (decide (coeffs.length ≤ deg))
  some (S.padZeros deg coeffs)

/-- Models `col_multiplication_matrix`, rings/src/polynomial/quotient.rs:21-39. -/
def DomainOps.pqColMulMatrix (a : List α) : Option (Mat α) := do
  let deg ← S.pqDegree modulus
  let cols ← (List.range deg).mapM (S.pqMulCol modulus deg a)
  Mat.fromCols cols

/-- Models `row_multiplication_matrix`, rings/src/polynomial/quotient.rs:41-43. -/
def DomainOps.pqRowMulMatrix (a : List α) : Option (Mat α) := (S.pqColMulMatrix modulus a).map Mat.transposed

/-- Models `to_col_vector`, rings/src/polynomial/quotient.rs:45-50. -/
def DomainOps.pqToCol (a : List α) : Option (Mat α) := do
  let r ← S.pqReduce modulus a
  let deg ← S.pqDegree modulus
  Mat.construct deg 1 fun i _ => some (S.polyCoeff r i)

/-- Models `to_row_vector`, rings/src/polynomial/quotient.rs:51-53. -/
def DomainOps.pqToRow (a : List α) : Option (Mat α) := (S.pqToCol modulus a).map Mat.transposed

/-- Models `from_col_vector`, rings/src/polynomial/quotient.rs:55-63. -/
def DomainOps.pqFromCol (m : Mat α) : Option (List α) := do
  assertThat (m.cols == 1)
  let deg ← S.pqDegree modulus
  assertThat (m.rows == deg)
  (List.range deg).mapM fun i => m.get i 0

/-- Models `from_row_vector`, rings/src/polynomial/quotient.rs:64-66. -/
def DomainOps.pqFromRow (m : Mat α) : Option (List α) := S.pqFromCol modulus m.transposed

/-- Models `norm`, rings/src/polynomial/quotient.rs:74-78. -/
def DomainOps.pqNorm (a : List α) : Option α := do
  let m ← S.pqColMulMatrix modulus a
  unwrapMat (S.fieldEuc.bezout.matDet m)

/-- Models `trace`, rings/src/polynomial/quotient.rs:80-84. -/
def DomainOps.pqTrace (a : List α) : Option α := do
  let m ← S.pqColMulMatrix modulus a
  unwrapMat (S.matTrace m)

end Quotient

section FinitePoly
variable {α : Type} (F : FinFieldOps α)

/-- The cardinality `p^k`. Models rings/src/number/finite_fields/polynomial.rs:390-391. -/
def FinFieldOps.q : Nat := F.charPow.1 ^ F.charPow.2

/-- Polynomials over the finite field. -/
def FinFieldOps.P : BezoutOps (List α) := F.toDomainOps.polyBezout

/-- `self.div(a, b).unwrap()`. -/
def FinFieldOps.pdiv (a b : List α) : Option (List α) := unwrapDiv (F.polyDiv a b)

/-- `self.gcd(a, b)`. -/
def FinFieldOps.pgcd (a b : List α) : Option (List α) := F.P.gcd a b

/-- Models `MonicFactored` (fields `unit` and `monic`), rings/src/number/finite_fields/polynomial.rs:32-37. -/
structure MonicFac (α : Type) where
  unit : α
  monic : List α

/-- Models `SquarefreeFactored`, rings/src/number/finite_fields/polynomial.rs:40-44. -/
structure SqFac (α : Type) where
  unit : α
  factors : List (List α × Nat)

/-- Models `DistinctDegreeFactored`; an entry is (`irreducible_factor_degree`, `polynomial`) and the multiplicity,
rings/src/number/finite_fields/polynomial.rs:47-57. -/
structure DdFac (α : Type) where
  unit : α
  factors : List ((Nat × List α) × Nat)

/-- The part common to `MonicFactored::factor` and `factorize_monic`. Models
rings/src/number/finite_fields/polynomial.rs:212-213. -/
def FinFieldOps.monicParts (poly : List α) : Option (MonicFac α) := do
  let um ← F.P.factorFavAssoc poly
  let unit ← F.polyAsConstant um.1
  some ⟨unit, um.2⟩

/-- Models `factorize_monic`, rings/src/number/finite_fields/polynomial.rs:208-220. -/
def FinFieldOps.factorizeMonic (poly : List α) : Option (Option (MonicFac α)) :=
  if F.P.isZero poly then some none else (F.monicParts poly).map some

/-- Models `MonicFactored::factor`, rings/src/number/finite_fields/polynomial.rs:60-69. -/
def FinFieldOps.monicFactor (poly : List α) : Option (MonicFac α) := do
  let m ← F.monicParts poly
  assertThat (F.polyIsMonic m.monic)
  some m

/-- Models `MonicFactored::new_monic_unchecked`, rings/src/number/finite_fields/polynomial.rs:71-82. -/
def FinFieldOps.newMonic (monic : List α) : Option (MonicFac α) := do
  assertThat (F.polyIsMonic monic)
  some ⟨F.one, monic⟩

/-- Models `into_polynomial`, rings/src/number/finite_fields/polynomial.rs:84-87. -/
def FinFieldOps.monicIntoPoly (m : MonicFac α) : List α := F.polyMul (polyConst m.unit) m.monic

/-- `factorize_monic(..).unwrap().monic`. Models rings/src/number/finite_fields/polynomial.rs:425-435. -/
def FinFieldOps.monicOf (poly : List α) : Option (List α) := ((F.factorizeMonic poly).bind id).map MonicFac.monic

/-- Models `unit_unchecked`, rings/src/number/finite_fields/polynomial.rs:91-98. -/
def FinFieldOps.sqUnit (unit : α) : Option (SqFac α) := do
  let u ← F.isUnit unit
  assertThat u
  some ⟨unit, []⟩

/-- The branch on the degree in `new_squarefree_poly_unchecked`. Models rings/src/number/finite_fields/polynomial.rs:106-120. -/
def FinFieldOps.sqNewDeg (poly : List α) (deg : Nat) : Option (SqFac α) :=
  if deg = 0 then (F.polyAsConstant poly).map fun u => ⟨u, []⟩ else some ⟨F.one, [(poly, 1)]⟩

/-- Models `new_squarefree_poly_unchecked`, rings/src/number/finite_fields/polynomial.rs:100-121. -/
def FinFieldOps.sqNew (poly : List α) : Option (SqFac α) := do
  assertThat (!F.P.isZero poly)
  let deg ← F.polyDegree poly
  F.sqNewDeg poly deg

/-- Models `pow`, rings/src/number/finite_fields/polynomial.rs:123-128. -/
def SqFac.pow (f : SqFac α) (power : Nat) : SqFac α := ⟨f.unit, f.factors.map fun p => (p.1, p.2 * power)⟩

/-- Models `into_monic_factored`, rings/src/number/finite_fields/polynomial.rs:130-142. -/
def FinFieldOps.sqIntoMonic (f : SqFac α) : MonicFac α :=
  ⟨f.unit, F.P.product (f.factors.map fun p => F.P.natPow p.1 p.2)⟩

/-- The body of the outer loop of `mul`: add the power to the first equal factor, or push. Models
rings/src/number/finite_fields/polynomial.rs:148-156. -/
def FinFieldOps.sqMulOne (p : List α × Nat) : List (List α × Nat) → List (List α × Nat)
  | [] => [p]
  | s :: rest => if F.polyEqual p.1 s.1 then (s.1, s.2 + p.2) :: rest else s :: FinFieldOps.sqMulOne p rest

/-- Models `mul`, rings/src/number/finite_fields/polynomial.rs:144-157. -/
def FinFieldOps.sqMul (f g : SqFac α) : SqFac α :=
  ⟨F.mul f.unit g.unit, g.factors.foldl (fun fs p => F.sqMulOne p fs) f.factors⟩

/-- The loop `while w != 1`. Models rings/src/number/finite_fields/polynomial.rs:250-262. -/
def FinFieldOps.sqLoop (w c : List α) (i : Nat) (factors : SqFac α) : Option (List α × SqFac α) :=
  if F.polyEqual w F.P.one then some (c, factors)
  else do
    let y ← F.pgcd w c
    let wy ← F.pdiv w y
    let g ← F.sqNew wy
    let cy ← F.pdiv c y
    FinFieldOps.sqLoop y cy (i + 1) (F.sqMul factors (g.pow i))
partial_fixpoint

/-- The body of the loop that collects the coefficients at multiples of `p`. Models
rings/src/number/finite_fields/polynomial.rs:269-275. -/
def FinFieldOps.rootStep (acc : List α) (kc : Nat × α) : Option (List α) :=
  if kc.1 % F.charPow.1 = 0 then some (acc ++ [kc.2])
  else (assertThat (F.isZero kc.2)).map fun _ => acc

/-- The coefficients of `reduced_c`. Models rings/src/number/finite_fields/polynomial.rs:268-277. -/
def FinFieldOps.rootCoeffs (c : List α) : Option (List α) :=
  ((List.range c.length).zip c).foldlM F.rootStep []

/-- Models `factorize_squarefree`, rings/src/number/finite_fields/polynomial.rs:238-285. -/
def FinFieldOps.factorizeSquarefree (m : MonicFac α) : Option (SqFac α) := do
  let factors ← F.sqUnit m.unit
  let c ← F.pgcd m.monic (F.polyDerivative m.monic)
  let w ← F.pdiv m.monic c
  let r ← F.sqLoop w c 1 factors
  if F.polyEqual r.1 F.P.one then some r.2
  else do
    let reduced ← F.rootCoeffs r.1
    let mm ← F.newMonic reduced
    let fs ← FinFieldOps.factorizeSquarefree mm
    some (F.sqMul r.2 (fs.pow F.charPow.1))
partial_fixpoint

/-! ## Berlekamp's algorithm -/

/-- A row of the Berlekamp matrix: `x^(iq) - x^i` modulo `f`. Models rings/src/number/finite_fields/polynomial.rs:303-308. -/
def FinFieldOps.berlekampRow (f : List α) (q i : Nat) : Option (List α) :=
  F.polyEuc.rem (F.polyAdd (F.polyVarPow (i * q)) (F.polyNeg (F.polyVarPow i))) f

/-- A basis element of the Berlekamp algebra. Models rings/src/number/finite_fields/polynomial.rs:321-323. -/
def berlekampBasis (deg : Nat) (m : Mat α) : Option (List α) := (List.range deg).mapM fun c => m.get 0 c

/-- The element with the given coordinates. Models rings/src/number/finite_fields/polynomial.rs:330-339. -/
def FinFieldOps.berlekampElem (basis : List (List α)) (coeffs : List α) : List α :=
  F.P.sum ((coeffs.zip basis).map fun cb => F.polyMul (polyConst cb.1) cb.2)

/-- The body of the loop: a result if the gcd is a proper factor. Models rings/src/number/finite_fields/polynomial.rs:341-351. -/
def FinFieldOps.berlekampTry (f : List α) (deg : Nat) (h : List α) : Option (Option (FindFactorResult (List α))) := do
  let g ← F.pgcd h f
  let gDeg ← F.polyDegree g
  if gDeg ≠ 0 ∧ gDeg ≠ deg then
    let g' ← F.pdiv f g
    some (some (.composite g g'))
  else some none

/-- The loop over all elements of the Berlekamp algebra. Models rings/src/number/finite_fields/polynomial.rs:326-353. -/
def FinFieldOps.berlekampLoop (f : List α) (deg : Nat) (basis : List (List α)) : List (List α) → Option (FindFactorResult (List α))
  | [] => some .irreducible
  | cs :: rest =>
    (F.berlekampTry f deg (F.berlekampElem basis cs)).bind fun r =>
      match r with
      | some res => some res
      | none => FinFieldOps.berlekampLoop f deg basis rest

/-- Models `find_factor_by_berlekamps_algorithm`, rings/src/number/finite_fields/polynomial.rs:292-354. -/
def FinFieldOps.findFactorBerlekamp (f : List α) : Option (FindFactorResult (List α)) := do
  let sq ← F.polyIsSquarefree f
  assertThat sq
  let deg ← F.polyDegree f
  let rows ← (List.range deg).mapM (F.berlekampRow f F.elements.length)
  let mat ← Mat.construct deg deg fun i j => (rows[i]?).map fun r => F.polyCoeff r j
  let ker ← F.fieldEuc.bezout.rowKernel mat
  let mats ← ker.basisMatrices
  let basis ← mats.mapM (berlekampBasis deg)
  F.berlekampLoop f deg basis (Factored.multiCartesianProduct (List.replicate ker.rank F.elements))

/-- One factor in `factorize_berlekamps`. Models rings/src/number/finite_fields/polynomial.rs:371-378. -/
def FinFieldOps.berlekampFactor (acc : Factored (List α)) (p : List α × Nat) : Option (Factored (List α)) := do
  let f ← factorizeByFindFactor F.P.toFavOps F.findFactorBerlekamp p.1
  Factored.mul F.P.toFavOps acc (f.pow p.2)

/-- Models `factorize_berlekamps`, rings/src/number/finite_fields/polynomial.rs:362-380. -/
def FinFieldOps.factorizeBerlekamps (s : SqFac α) : Option (Factored (List α)) :=
  s.factors.foldlM F.berlekampFactor ⟨polyConst s.unit, []⟩

/-! ## Distinct degree factorization -/

/-- The matrix of the `q`-th power map modulo `poly`. Models rings/src/number/finite_fields/polynomial.rs:408-417. -/
def FinFieldOps.frobMatrix (poly : List α) (n : Nat) : Option (Mat α) := do
  let cols ← (List.range n).mapM fun c => F.pqToCol poly ((F.pqRing poly).natPow (F.polyVarPow c) F.q)
  Mat.joinCols n cols

/-- `gcd(f, t - x)` made monic. Models rings/src/number/finite_fields/polynomial.rs:425-435 and 446-460. -/
def FinFieldOps.ddGcd (f t : List α) : Option (List α) := do
  let g ← F.fieldEuc.bezout.polyGcdPrimSub f (F.polyAdd t (F.polyNeg F.polyVar))
  F.monicOf g

/-- The division and the push when the gcd is not one. Models rings/src/number/finite_fields/polynomial.rs:466-475. -/
def FinFieldOps.ddPush (i : Nat) (f g : List α) (acc : List (Nat × List α)) : Option (List α × List (Nat × List α)) :=
  if F.polyEqual g F.P.one then some (f, acc) else (F.pdiv f g).map fun f' => (f', acc ++ [(i, g)])

/-- The loop `while degree(f) >= 2 * i`. Models rings/src/number/finite_fields/polynomial.rs:422-482. -/
def FinFieldOps.ddLoop (poly : List α) (frob : Mat α) (i : Nat) (xqi f : List α) (acc : List (Nat × List α)) :
    Option (List α × List (Nat × List α)) := do
  let d ← F.polyDegree f
  if 2 * i ≤ d then
    assertThat (F.polyIsMonic f)
    let g ← F.ddGcd f xqi
    assertThat (F.polyIsMonic g)
    assertThat ((F.pqRing poly).equal xqi (F.polyVarPow (F.q ^ i)))
    let gNaive ← F.ddGcd f (F.polyVarPow (F.q ^ i))
    assertThat (F.polyIsMonic gNaive)
    assertThat (F.polyEqual g gNaive)
    let fa ← F.ddPush i f g acc
    let col ← F.pqToCol poly xqi
    let prod ← F.matMulUnwrap frob col
    let next ← F.pqFromCol poly prod
    FinFieldOps.ddLoop poly frob (i + 1) next fa.1 fa.2
  else some (f, acc)
partial_fixpoint

/-- The push after the loop. Models rings/src/number/finite_fields/polynomial.rs:483-491. -/
def FinFieldOps.ddLast (fa : List α × List (Nat × List α)) : Option (List (Nat × List α)) :=
  if F.polyEqual fa.1 F.P.one then some fa.2 else (F.polyDegree fa.1).map fun d => fa.2 ++ [(d, fa.1)]

/-- The distinct degree factorization of one squarefree polynomial. Models
rings/src/number/finite_fields/polynomial.rs:401-491. -/
def FinFieldOps.ddPoly (poly : List α) : Option (List (Nat × List α)) := do
  let n ← F.polyDegree poly
  assertThat (decide (1 ≤ n))
  let frob ← F.frobMatrix poly n
  let fa ← F.ddLoop poly frob 1 ((F.pqRing poly).natPow F.polyVar F.q) poly []
  F.ddLast fa

/-- Models `factorize_distinct_degree`, rings/src/number/finite_fields/polynomial.rs:388-498. -/
def FinFieldOps.factorizeDistinctDegree (s : SqFac α) : Option (DdFac α) := do
  let fs ← s.factors.mapM fun p => (F.ddPoly p.1).map fun l => l.map fun g => (g, p.2)
  some ⟨s.unit, fs.flatten⟩

/-- Models `into_squarefree_factored`, rings/src/number/finite_fields/polynomial.rs:161-172. -/
def DdFac.intoSquarefree (d : DdFac α) : SqFac α := ⟨d.unit, d.factors.map fun p => (p.1.2, p.2)⟩

/-! ## The Cantor–Zassenhaus algorithm -/

/-- The loop for characteristic two: `h + h^2 + h^4 + …`, `n` terms. Models
rings/src/number/finite_fields/polynomial.rs:564-572. -/
def FinFieldOps.traceLoop : Nat → List α → List α → List α
  | 0, sum, _ => sum
  | n + 1, sum, sq => FinFieldOps.traceLoop n (F.polyAdd sum sq) (F.polyMul sq sq)

/-- The polynomial `g` made from the random polynomial `h`. Models rings/src/number/finite_fields/polynomial.rs:561-584. -/
def FinFieldOps.czG (poly : List α) (d : Nat) (h : List α) : List α :=
  if F.charPow.1 = 2 then F.traceLoop (F.charPow.2 * d) [] h
  else
    (F.pqRing poly).add ((F.pqRing poly).natPow h ((F.q ^ d - 1) / 2)) ((F.pqRing poly).neg (F.pqRing poly).one)

/-- Split one polynomial with `g`. Models rings/src/number/finite_fields/polynomial.rs:587-599. -/
def FinFieldOps.czSplit (g u : List α) : Option (List (List α)) := do
  let s ← F.polySubresultantGcd u g
  let gcd ← F.monicOf s
  let gDeg ← F.polyDegree gcd
  let uDeg ← F.polyDegree u
  if gDeg = 0 ∨ gDeg = uDeg then some [u]
  else (F.pdiv u gcd).map fun t => [t, gcd]

/-- Collect the factors of degree `d`. Models rings/src/number/finite_fields/polynomial.rs:536-549. -/
def FinFieldOps.czCollect (d mult : Nat) : List (List α) → Factored (List α) → Option (Factored (List α) × List (List α))
  | [], fs => some (fs, [])
  | u :: rest, fs => do
    let du ← F.polyDegree u
    if du = d then
      let irr ← Factored.factoredIrreducible F.P.toFavOps u
      let fs' ← Factored.mul F.P.toFavOps fs (irr.pow mult)
      FinFieldOps.czCollect d mult rest fs'
    else (FinFieldOps.czCollect d mult rest fs).map fun r => (r.1, u :: r.2)

/-- The loop of the algorithm; `rand` is the stream of random elements and `pos` the number of elements drawn so far. Models
rings/src/number/finite_fields/polynomial.rs:526-602. -/
def FinFieldOps.czLoop (rand : Nat → α) (poly : List α) (n d mult : Nat) (toFactor : List (List α)) (pos : Nat)
    (fs : Factored (List α)) : Option (Factored (List α)) := do
  let r ← F.czCollect d mult toFactor fs
  if r.2.isEmpty then some r.1
  else
    let g := F.czG poly d ((List.range n).map fun i => rand (pos + i))
    let next ← r.2.mapM (F.czSplit g)
    FinFieldOps.czLoop rand poly n d mult next.flatten (pos + n) r.1
partial_fixpoint

/-- One entry in `factorize_cantor_zassenhaus`; the random generator is seeded anew for every entry. Models
rings/src/number/finite_fields/polynomial.rs:515-603. -/
def FinFieldOps.czEntry (rand : Nat → α) (fs : Factored (List α)) (e : (Nat × List α) × Nat) : Option (Factored (List α)) := do
  let n ← F.polyDegree e.1.2
  assertThat (decide (e.1.1 ≠ 0) && n % e.1.1 == 0)
  F.czLoop rand e.1.2 n e.1.1 e.2 [e.1.2] 0 fs

/-- Models `factorize_cantor_zassenhaus`, rings/src/number/finite_fields/polynomial.rs:506-605. -/
def FinFieldOps.factorizeCz (rand : Nat → α) (d : DdFac α) : Option (Factored (List α)) :=
  d.factors.foldlM (F.czEntry rand) (Factored.factoredUnit (polyConst d.unit))

/-- The steps after `factorize_monic` in `factor`. Models rings/src/number/finite_fields/modulo.rs:210-214. -/
def FinFieldOps.factorSteps (rand : Nat → α) (m : MonicFac α) : Option (Factored (List α)) := do
  let s ← F.factorizeSquarefree m
  let d ← F.factorizeDistinctDegree s
  F.factorizeCz rand d

/-- Models `factor` of polynomials over a finite field, rings/src/number/finite_fields/modulo.rs:209-215,
rings/src/number/finite_fields/quaternary_field.rs:118-124 and rings/src/number/integer/modulo.rs:25-33. -/
def FinFieldOps.polyFactor (rand : Nat → α) (p : List α) : Option (Option (Factored (List α))) :=
  (F.factorizeMonic p).bind fun r =>
    match r with
    | none => some none
    | some m => (F.factorSteps rand m).map some

/-- The steps with Berlekamp's algorithm. -/
def FinFieldOps.berlekampSteps (m : MonicFac α) : Option (Factored (List α)) := do
  let s ← F.factorizeSquarefree m
  F.factorizeBerlekamps s

end FinitePoly

end Verif.Rings
