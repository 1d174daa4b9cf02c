import Verif.Model.Structure

/-!
# Polynomials

`Polynomial<Set>` is a vector of coefficients, the coefficient of `λ^i` at index `i`; here a list. The vector may
have trailing zeros (`from_coeffs` does not strip them). Line numbers refer to
rings/src/polynomial/polynomial.rs.
-/

namespace Verif.Rings

section Semi
variable {α : Type} (S : SemiRingOps α)

/-- Models `coeff`, rings/src/polynomial/polynomial.rs:235-240. -/
def SemiRingOps.polyCoeff (p : List α) (i : Nat) : α := p.getD i S.zero

/-- Models `constant`, rings/src/polynomial/polynomial.rs:40-42. -/
def polyConst {α : Type} (x : α) : List α := [x]

/-- Models `equal`, rings/src/polynomial/polynomial.rs:120-127. -/
def SemiRingOps.polyEqual (a b : List α) : Bool :=
  (List.range (max a.length b.length)).all fun i => S.equal (S.polyCoeff a i) (S.polyCoeff b i)

/-- Models `reduce_poly`, rings/src/polynomial/polynomial.rs:185-201. -/
def SemiRingOps.polyReduce (a : List α) : List α :=
  match a with
  | [] => []
  | x :: t =>
    if S.equal ((x :: t).getLast (List.cons_ne_nil x t)) S.zero then SemiRingOps.polyReduce ((x :: t).dropLast)
    else x :: t
termination_by a.length

/-- Models `add`, rings/src/polynomial/polynomial.rs:141-147. -/
def SemiRingOps.polyAdd (a b : List α) : List α :=
  S.polyReduce ((List.range (max a.length b.length)).map fun i => S.add (S.polyCoeff a i) (S.polyCoeff b i))

/-- One update `coeffs[i + j] += a[i] * b[j]`. Models rings/src/polynomial/polynomial.rs:156-159. -/
def SemiRingOps.polyMulStep (a b : List α) (i : Nat) (coeffs : List α) (j : Nat) : List α :=
  coeffs.set (i + j) (S.add (coeffs.getD (i + j) S.zero) (S.mul (a.getD i S.zero) (b.getD j S.zero)))

/-- The inner loop of `mul`. Models rings/src/polynomial/polynomial.rs:155-160. -/
def SemiRingOps.polyMulRow (a b : List α) (coeffs : List α) (i : Nat) : List α :=
  (List.range b.length).foldl (S.polyMulStep a b i) coeffs

/-- Models `mul`, rings/src/polynomial/polynomial.rs:149-163. -/
def SemiRingOps.polyMul (a b : List α) : List α :=
  S.polyReduce ((List.range a.length).foldl (S.polyMulRow a b) (List.replicate (a.length + b.length) S.zero))

/-- The polynomial structure over a semiring. Models rings/src/polynomial/polynomial.rs:119-164. -/
def SemiRingOps.poly : SemiRingOps (List α) where
  equal := S.polyEqual
  zero := []
  one := [S.one]
  add := S.polyAdd
  mul := S.polyMul

/-- Models `var`, rings/src/polynomial/polynomial.rs:203-205. -/
def SemiRingOps.polyVar : List α := [S.zero, S.one]

/-- Models `var_pow`, rings/src/polynomial/polynomial.rs:207-219. -/
def SemiRingOps.polyVarPow (n : Nat) : List α :=
  (List.range (n + 1)).map fun i => if i < n then S.zero else S.one

/-- Models `constant_var_pow`, rings/src/polynomial/polynomial.rs:221-233. -/
def SemiRingOps.polyConstVarPow (x : α) (n : Nat) : List α :=
  (List.range (n + 1)).map fun i => if i < n then S.zero else x

/-- Models `degree`, rings/src/polynomial/polynomial.rs:298-306. -/
def SemiRingOps.polyDegree (p : List α) : Option Nat :=
  (List.range p.length).reverse.find? fun i => !S.isZero (p.getD i S.zero)

/-- Models `num_coeffs`, rings/src/polynomial/polynomial.rs:286-291. -/
def SemiRingOps.polyNumCoeffs (p : List α) : Nat :=
  match S.polyDegree p with
  | some n => n + 1
  | none => 0

/-- Models `leading_coeff`, rings/src/polynomial/polynomial.rs:242-244. The `unwrap` of the code is on an index
below the length (the degree is one), so it is written with a default. -/
def SemiRingOps.polyLeadingCoeff (p : List α) : Option α :=
  (S.polyDegree p).map fun d => p.getD d S.zero

/-- Models `evaluate`, rings/src/polynomial/polynomial.rs:246-255. -/
def SemiRingOps.polyEvaluate (p : List α) (x : α) : α :=
  p.reverse.foldl (fun y c => S.add (S.mul y x) c) S.zero

/-- Models `compose`, rings/src/polynomial/polynomial.rs:258-261. -/
def SemiRingOps.polyCompose (p q : List α) : List α := S.poly.polyEvaluate (p.map polyConst) q

/-- Models `reversed`, rings/src/polynomial/polynomial.rs:265-267. -/
def polyReversed {α : Type} (p : List α) : List α := p.reverse

/-- Models `mul_var_pow`, rings/src/polynomial/polynomial.rs:269-278. -/
def SemiRingOps.polyMulVarPow (p : List α) (n : Nat) : List α := List.replicate n S.zero ++ p

/-- Models `mul_scalar`, rings/src/polynomial/polynomial.rs:280-284. -/
def SemiRingOps.polyMulScalar (p : List α) (x : α) : List α := S.polyReduce (p.map fun c => S.mul c x)

/-- Models `as_constant`, rings/src/polynomial/polynomial.rs:308-316. -/
def SemiRingOps.polyAsConstant (p : List α) : Option α :=
  if S.polyNumCoeffs p = 0 then some S.zero
  else if S.polyNumCoeffs p = 1 then some (p.getD 0 S.zero)
  else none

/-- Models `is_monic`, rings/src/polynomial/polynomial.rs:318-323. -/
def SemiRingOps.polyIsMonic (p : List α) : Bool :=
  match S.polyLeadingCoeff p with
  | some lc => S.equal lc S.one
  | none => false

/-- The loop body of `derivative`: `p[i] = p[i+1] * (i+1)`. Models rings/src/polynomial/polynomial.rs:329-333. -/
def SemiRingOps.polyDerivStep (p : List α) (i : Nat) : List α :=
  p.set i (S.mul (p.getD (i + 1) S.zero) (S.fromNat (i + 1)))

/-- The part of `derivative` after the reduction. Models rings/src/polynomial/polynomial.rs:327-337. -/
def SemiRingOps.polyDerivReduced (p : List α) : List α :=
  if S.polyNumCoeffs p > 0 then ((List.range (S.polyNumCoeffs p - 1)).foldl S.polyDerivStep p).dropLast
  else p

/-- Models `derivative`, rings/src/polynomial/polynomial.rs:325-338. -/
def SemiRingOps.polyDerivative (p : List α) : List α := S.polyDerivReduced (S.polyReduce p)

end Semi

section Ring
variable {α : Type} (S : RingOps α)

/-- Models `neg`, rings/src/polynomial/polynomial.rs:167-174. -/
def RingOps.polyNeg (a : List α) : List α := a.map S.neg

/-- The polynomial structure over a ring. Models rings/src/polynomial/polynomial.rs:166-175. -/
def RingOps.poly : RingOps (List α) where
  toSemiRingOps := S.toSemiRingOps.poly
  neg := S.polyNeg

end Ring

section Domain
variable {α : Type} (S : DomainOps α)

/-- `a -= qc * x^i * b`. Models rings/src/polynomial/polynomial.rs:434-438. -/
def RingOps.polySubShift {α : Type} (S : RingOps α) (a b : List α) (qc : α) (i : Nat) : List α :=
  S.polyAdd a (S.polyNeg (S.polyMulVarPow (S.polyMulScalar b qc) i))

/-- The loop of `try_quorem`, which runs over `i = k-1, …, 0`; the argument is the number of indices still to do.
`n` is `num_coeffs(b)`. `DivideByZero` from the coefficient division panics.
Models rings/src/polynomial/polynomial.rs:427-446. -/
def DomainOps.polyQuoremLoop (b : List α) (n : Nat) :
    Nat → List α → List α → Option (Except DivErr (List α × List α))
  | 0, q, a => some (.ok (q, a))
  | i + 1, q, a =>
    match S.div (S.polyCoeff a (i + n - 1)) (S.polyCoeff b (n - 1)) with
    | some (.ok qc) => DomainOps.polyQuoremLoop b n i (q.set i qc) (S.polySubShift a b qc i)
    | some (.error .notDivisible) => some (.error .notDivisible)
    | some (.error .divideByZero) => none
    | none => none

/-- Models `try_quorem`, rings/src/polynomial/polynomial.rs:407-449. -/
def DomainOps.polyTryQuorem (a b : List α) : Option (Except DivErr (List α × List α)) :=
  let m := S.polyNumCoeffs a
  let n := S.polyNumCoeffs b
  if n = 0 then some (.error .divideByZero)
  else if m < n then some (.ok ([], a))
  else S.polyQuoremLoop b n (m - n + 1) (List.replicate (m - n + 1) S.zero) a

/-- The `Ok` branch of `div_impl`, with its debug assertion. Models rings/src/polynomial/polynomial.rs:457-464. -/
def DomainOps.polyDivCheck (a b : List α) (q r : List α) : Option (Except DivErr (List α)) :=
  if S.polyEqual (S.polyAdd (S.polyMul q b) r) a then
    if S.toSemiRingOps.poly.isZero r then some (.ok q) else some (.error .notDivisible)
  else none

/-- Models `div_impl`, rings/src/polynomial/polynomial.rs:451-468, and `div`, 623-627. -/
def DomainOps.polyDiv (a b : List α) : Option (Except DivErr (List α)) :=
  match S.polyTryQuorem a b with
  | some (.ok (q, r)) => S.polyDivCheck a b q r
  | some (.error e) => some (.error e)
  | none => none

/-- The polynomial structure over an integral domain. Models rings/src/polynomial/polynomial.rs:623-627. -/
def DomainOps.poly : DomainOps (List α) where
  toRingOps := S.toRingOps.poly
  div := S.polyDiv

/-- `Ok((_q, r))` gives `r`, an error panics. Models rings/src/polynomial/polynomial.rs:494-497. -/
def quoremRem {α : Type} : Option (Except DivErr (List α × List α)) → Option (List α)
  | some (.ok (_, r)) => some r
  | _ => none

/-- The result of `pseudorem` that is not a panic: `None`, `Some(Err(_))` or `Some(Ok(r))`.
Models rings/src/polynomial/polynomial.rs:470-476. -/
inductive PseudoRem (α : Type)
  | divisorZero
  | degreeTooSmall
  | ok (r : List α)

/-- `.unwrap().unwrap()` on the result of `pseudorem`. -/
def PseudoRem.unwrap {α : Type} : PseudoRem α → Option (List α)
  | .ok r => some r
  | _ => none

/-- Models `pseudorem`, rings/src/polynomial/polynomial.rs:472-499. -/
def DomainOps.polyPseudorem (a b : List α) : Option (PseudoRem α) :=
  let m := S.polyNumCoeffs a
  let n := S.polyNumCoeffs b
  if n = 0 then some .divisorZero
  else if m < n then some .degreeTooSmall
  else
    (quoremRem (S.polyTryQuorem (S.polyMul a (polyConst (S.natPow (S.polyCoeff b (n - 1)) (m - n + 1)))) b)).map
      PseudoRem.ok

/-- `self.pseudorem(a, &b).unwrap().unwrap()`. Models rings/src/polynomial/polynomial.rs:528,545. -/
def DomainOps.polyPremUnwrap (a b : List α) : Option (List α) := (S.polyPseudorem a b).bind PseudoRem.unwrap

/-- The variables of the loop of `pseudo_remainder_subresultant_sequence`.
Models rings/src/polynomial/polynomial.rs:521-532. -/
structure PrsState (α : Type) where
  prs : List (List α)
  ssres : List α
  b : List α
  bDeg : Nat
  r : List α
  lcB : α
  gamma : α

/-- The new `gamma`. Models rings/src/polynomial/polynomial.rs:550-566. -/
def DomainOps.prsGamma (lcB gamma : α) (d : Nat) : Option α :=
  if d > 1 then unwrapDiv (S.div (S.natPow (S.neg lcB) d) (S.natPow gamma (d - 1)))
  else some (S.neg lcB)

/-- One iteration of the loop when `r` has degree `rDeg`. Models rings/src/polynomial/polynomial.rs:536-567. -/
def DomainOps.prsStep (st : PrsState α) (rDeg : Nat) : Option (PrsState α) := do
  let d := st.bDeg - rDeg
  let beta := S.mul (S.neg st.lcB) (S.natPow st.gamma d)
  let pr ← S.polyPremUnwrap st.b st.r
  let r ← unwrapDiv (S.polyDiv pr (polyConst beta))
  let lcB ← S.polyLeadingCoeff st.r
  let gamma ← S.prsGamma lcB st.gamma d
  some ⟨st.prs ++ [st.r], st.ssres ++ [S.neg gamma], st.r, rDeg, r, lcB, gamma⟩

/-- The loop of `pseudo_remainder_subresultant_sequence`. Models rings/src/polynomial/polynomial.rs:533-573. -/
def DomainOps.prsLoop (st : PrsState α) : Option (List (List α) × List α) :=
  match S.polyDegree st.r with
  | some rDeg => do
    let st' ← S.prsStep st rDeg
    DomainOps.prsLoop st'
  | none => do
    assertThat (S.toSemiRingOps.poly.isZero st.r)
    some (st.prs, st.ssres)
partial_fixpoint

/-- The case of two nonzero polynomials, `a` of degree at least that of `b`.
Models rings/src/polynomial/polynomial.rs:520-574. -/
def DomainOps.prsOrdered (a b : List α) (aDeg bDeg : Nat) : Option (List (List α) × List α) := do
  let d := aDeg - bDeg
  let beta := S.natPow (S.neg S.one) (d + 1)
  let pr ← S.polyPremUnwrap a b
  let lcB ← S.polyLeadingCoeff b
  let gamma := S.natPow lcB d
  S.prsLoop ⟨[a, b], [S.one, gamma], b, bDeg, S.polyMulScalar pr beta, lcB, S.neg gamma⟩

/-- Models `pseudo_remainder_subresultant_sequence`, rings/src/polynomial/polynomial.rs:503-577. -/
def DomainOps.polyPrs (a b : List α) : Option (List (List α) × List α) :=
  match S.polyDegree a, S.polyDegree b with
  | none, none => some ([], [])
  | none, some _ => some ([b], [S.one])
  | some _, none => some ([a], [S.one])
  | some aDeg, some bDeg =>
    if aDeg < bDeg then S.prsOrdered b a bDeg aDeg else S.prsOrdered a b aDeg bDeg

/-- Models `subresultant_gcd`, rings/src/polynomial/polynomial.rs:573-581. -/
def DomainOps.polySubresultantGcd (a b : List α) : Option (List α) :=
  (S.polyPrs a b).bind fun t => t.1.getLast?

/-- The branch on the degree of the last remainder. Models rings/src/polynomial/polynomial.rs:588-592. -/
def DomainOps.resultantOf (t : List (List α) × List α) : Option α := do
  let last ← t.1.getLast?
  let d ← S.polyDegree last
  if d > 0 then some S.zero else t.2.getLast?

/-- Models `resultant`, rings/src/polynomial/polynomial.rs:583-594. -/
def DomainOps.polyResultant (a b : List α) : Option α :=
  if S.toSemiRingOps.poly.isZero a || S.toSemiRingOps.poly.isZero b then some S.zero
  else (S.polyPrs a b).bind S.resultantOf

/-- Models `is_squarefree`, rings/src/polynomial/polynomial.rs:596-599. -/
def DomainOps.polyIsSquarefree (p : List α) : Option Bool := do
  let g ← S.polySubresultantGcd p (S.polyDerivative p)
  let d ← S.polyDegree g
  some (d == 0)

/-- The sign in `discriminant`. Models rings/src/polynomial/polynomial.rs:611-615. -/
def RingOps.discSign {α : Type} (S : RingOps α) (n : Nat) (disc : α) : α :=
  if n % 4 = 0 ∨ n % 4 = 1 then disc else S.neg disc

/-- The result of `discriminant`: an error message or a value. The outer `Option` is panic.
Models `discriminant`, rings/src/polynomial/polynomial.rs:601-620. -/
def DomainOps.polyDiscriminant (p : List α) : Option (Option α) :=
  match S.polyDegree p with
  | none => some none
  | some n =>
    if n = 0 then some none
    else do
      let res ← S.polyResultant p (S.polyDerivative p)
      let disc ← unwrapDiv (S.div res (S.polyCoeff p n))
      some (some (S.discSign n disc))

/-- The body of the loop of `interpolate_by_lagrange_basis` over the pairs `j < k`.
Models rings/src/polynomial/polynomial.rs:812-825. -/
def RingOps.lagrangePair {α : Type} (S : RingOps α) (points : List (α × α)) (i j : Nat) (term : List α) (k : Nat) :
    List α :=
  let xj := (points.getD j (S.zero, S.zero)).1
  let xk := (points.getD k (S.zero, S.zero)).1
  if i ≠ j ∧ i ≠ k then S.polyMul term (polyConst (S.add (S.neg xk) xj)) else term

/-- The loop over `k` in `j + 1 .. n`. Models rings/src/polynomial/polynomial.rs:811-826. -/
def RingOps.lagrangeRow {α : Type} (S : RingOps α) (points : List (α × α)) (i : Nat) (term : List α) (j : Nat) :
    List α :=
  (List.range' (j + 1) (points.length - (j + 1))).foldl (S.lagrangePair points i j) term

/-- Multiplication by `x - xj`. Models rings/src/polynomial/polynomial.rs:790-797. -/
def RingOps.lagrangeUp {α : Type} (S : RingOps α) (points : List (α × α)) (term : List α) (j : Nat) : List α :=
  S.polyMul term [S.neg (points.getD j (S.zero, S.zero)).1, S.one]

/-- Multiplication by `xj - x`. Models rings/src/polynomial/polynomial.rs:798-808. -/
def RingOps.lagrangeDown {α : Type} (S : RingOps α) (points : List (α × α)) (term : List α) (j : Nat) : List α :=
  S.polyMul term [(points.getD j (S.zero, S.zero)).1, S.neg S.one]

/-- The `i`-th term of the numerator. Models rings/src/polynomial/polynomial.rs:787-826. -/
def RingOps.lagrangeTerm {α : Type} (S : RingOps α) (points : List (α × α)) (i : Nat) : List α :=
  let t0 := polyConst (points.getD i (S.zero, S.zero)).2
  let t1 := (List.range' (i + 1) (points.length - (i + 1))).foldl (S.lagrangeUp points) t0
  let t2 := (List.range i).foldl (S.lagrangeDown points) t1
  (List.range points.length).foldl (S.lagrangeRow points i) t2

/-- The numerator. Models rings/src/polynomial/polynomial.rs:785-828. -/
def RingOps.lagrangeNum {α : Type} (S : RingOps α) (points : List (α × α)) : List α :=
  (List.range points.length).foldl (fun num i => S.polyAdd num (S.lagrangeTerm points i)) []

/-- The inner loop of the denominator. Models rings/src/polynomial/polynomial.rs:832-839. -/
def RingOps.lagrangeDenRow {α : Type} (S : RingOps α) (points : List (α × α)) (den : List α) (i : Nat) : List α :=
  (List.range' (i + 1) (points.length - (i + 1))).foldl (fun d j =>
    S.polyMul d (polyConst (S.add (S.neg (points.getD j (S.zero, S.zero)).1) (points.getD i (S.zero, S.zero)).1))) den

/-- The denominator. Models rings/src/polynomial/polynomial.rs:830-840. -/
def RingOps.lagrangeDen {α : Type} (S : RingOps α) (points : List (α × α)) : List α :=
  (List.range points.length).foldl (S.lagrangeDenRow points) [S.one]

/-- Models `interpolate_by_lagrange_basis`, rings/src/polynomial/polynomial.rs:765-851. -/
def DomainOps.polyInterpolateLagrange (points : List (α × α)) : Option (Option (List α)) :=
  (S.polyDiv (S.lagrangeNum points) (S.lagrangeDen points)).bind okOrNone

end Domain

section Fav
variable {α : Type} (S : FavOps α)

/-- Division of every coefficient by `u`, each `unwrap`ped. Models rings/src/polynomial/polynomial.rs:639-641
and 727-729. -/
def DomainOps.polyDivCoeffs {α : Type} (S : DomainOps α) (a : List α) (u : α) : Option (List α) :=
  a.mapM fun c => unwrapDiv (S.div c u)

/-- Models `factor_fav_assoc`, rings/src/polynomial/polynomial.rs:713-732. -/
def FavOps.polyFactorFavAssoc (a : List α) : Option (List α × List α) :=
  if S.toSemiRingOps.poly.isZero a then some ([S.one], [])
  else do
    let uc ← S.factorFavAssoc (a.getD (S.polyNumCoeffs a - 1) S.zero)
    let a' ← S.polyDivCoeffs a uc.1
    some (polyConst uc.1, a')

/-- The polynomial structure over a ring with favourite associates. Models
rings/src/polynomial/polynomial.rs:710-732. -/
def FavOps.poly : FavOps (List α) where
  toDomainOps := S.toDomainOps.poly
  factorFavAssoc := S.polyFactorFavAssoc

/-- Models `all_units`, rings/src/polynomial/polynomial.rs:737-743. -/
def polyAllUnits {α : Type} (units : List α) : List (List α) := units.map polyConst

end Fav

section Gcd
variable {α : Type} (S : GcdOps α)

/-- Models `factor_primitive`, rings/src/polynomial/polynomial.rs:632-645. -/
def GcdOps.polyFactorPrimitive (p : List α) : Option (Option (α × List α)) :=
  if S.toSemiRingOps.poly.isZero p then some none
  else do
    let g ← S.gcdList p
    let p' ← S.polyDivCoeffs p g
    some (some (g, p'))

/-- Models `is_primitive`, rings/src/polynomial/polynomial.rs:647-652. -/
def GcdOps.polyIsPrimitive (p : List α) : Option Bool :=
  (S.polyFactorPrimitive p).bind fun
    | some (unit, _) => S.isUnit unit
    | none => some false

/-- Models `primitive_part`, rings/src/polynomial/polynomial.rs:654-659. -/
def GcdOps.polyPrimitivePart (p : List α) : Option (Option (List α)) :=
  (S.polyFactorPrimitive p).map fun r => r.map (·.2)

/-- `factor_primitive(p).unwrap()`. -/
def GcdOps.polyFactorPrimitiveUnwrap (p : List α) : Option (α × List α) := (S.polyFactorPrimitive p).bind id

/-- The general case of `gcd_by_primitive_subresultant`. Models rings/src/polynomial/polynomial.rs:671-680. -/
def GcdOps.polyGcdPrimSubCore (a b : List α) : Option (List α) := do
  let pa ← S.polyFactorPrimitiveUnwrap a
  let pb ← S.polyFactorPrimitiveUnwrap b
  let gUnit ← S.gcd pa.1 pb.1
  let s ← S.polySubresultantGcd pa.2 pb.2
  let gp ← S.polyFactorPrimitiveUnwrap s
  let pp ← S.polyPrimitivePart (S.polyMul (polyConst gUnit) gp.2)
  pp

/-- Models `gcd_by_primitive_subresultant`, rings/src/polynomial/polynomial.rs:661-682. -/
def GcdOps.polyGcdPrimSub (a b : List α) : Option (List α) :=
  if S.toSemiRingOps.poly.isZero a then some b
  else if S.toSemiRingOps.poly.isZero b then some a
  else S.polyGcdPrimSubCore a b

/-- Models `primitive_squarefree_part`, rings/src/polynomial/polynomial.rs:697-708. -/
def GcdOps.polyPrimSquarefreePart (f : List α) : Option (List α) :=
  if S.toSemiRingOps.poly.isZero f then some f
  else do
    let g ← S.polySubresultantGcd f (S.polyDerivative f)
    let gp ← S.polyFactorPrimitiveUnwrap g
    let fp ← S.polyFactorPrimitiveUnwrap f
    unwrapDiv (S.polyDiv fp.2 gp.2)

end Gcd

section Field
variable {α : Type} (S : DomainOps α)

/-- The match of `quorem`: `NotDivisible` panics, `DivideByZero` gives `None`.
Models rings/src/polynomial/polynomial.rs:756-760. -/
def quoremOrNone {α : Type} : Except DivErr (List α × List α) → Option (Option (List α × List α))
  | .ok qr => some (some qr)
  | .error .notDivisible => none
  | .error .divideByZero => some none

/-- Polynomials over a field as a Euclidean structure. Models rings/src/polynomial/polynomial.rs:750-762. -/
def DomainOps.polyEuc : EucOps (List α) where
  toFavOps := S.fieldFav.poly
  norm := S.polyDegree
  quorem a b := (S.polyTryQuorem a b).bind quoremOrNone

/-- Polynomials over a field with their gcd and xgcd. Models rings/src/polynomial/polynomial.rs:684-694. -/
def DomainOps.polyBezout : BezoutOps (List α) := S.polyEuc.bezout

end Field

section Fof
variable {α β : Type}

/-- The numerators of `div * p`. Models rings/src/polynomial/polynomial.rs:915-922. -/
def fofClear (S : DomainOps α) (B : GcdOps β) (fromBase : β → α) (num den : α → β) (p : List α) (d : β) :
    Option (List β) :=
  p.mapM fun c => asBaseRing B.toSemiRingOps num den (S.mul (fromBase d) c)

/-- Models `factor_primitive_fof`, rings/src/polynomial/polynomial.rs:903-934: `S` is the field of fractions of `B`,
with `from_base_ring`, `numerator` and `denominator` given. -/
def polyFactorPrimitiveFof (S : DomainOps α) (B : GcdOps β) (fromBase : β → α) (num den : α → β) (p : List α) :
    Option (α × List β) := do
  let d ← B.lcmList (p.map den)
  let q ← fofClear S B fromBase num den p d
  let mp ← B.polyFactorPrimitiveUnwrap q
  let c ← unwrapDiv (S.div (fromBase mp.1) (fromBase d))
  some (c, mp.2)

end Fof

end Verif.Rings
