import Verif.Model.Pow
import Mathlib.Data.Int.Init
import Mathlib.Data.Rat.Init

/-!
# Ring structures

A Rust *structure* object is a dictionary of operations on a type of representatives; two different
representatives may denote the same ring element (`equal` decides that). It is modelled by a Lean structure of
functions. No law is built in: laws are hypotheses of the theorems (`Verif.Spec.Structure`).

`Option` around a result means "the call returns": `none` is a panic (or an endless loop). The basic operations
`equal, zero, one, add, mul, neg` are taken to be total.
-/

namespace Verif.Rings

/-- Models `RingDivisionError`, rings/src/structure/structure.rs:16-20. -/
inductive DivErr
  | divideByZero
  | notDivisible
  deriving DecidableEq, Repr

/-- Models `SemiRingStructure` (required methods), rings/src/structure/structure.rs:22-50. -/
structure SemiRingOps (α : Type) where
  equal : α → α → Bool
  zero : α
  one : α
  add : α → α → α
  mul : α → α → α

/-- Models `RingStructure` (required methods), rings/src/structure/structure.rs:133-134. -/
structure RingOps (α : Type) extends SemiRingOps α where
  neg : α → α

/-- Models `IntegralDomainStructure` (required methods), rings/src/structure/structure.rs:169-170. -/
structure DomainOps (α : Type) extends RingOps α where
  div : α → α → Option (Except DivErr α)

/-- Models `FavoriteAssociateStructure` (required methods), rings/src/structure/structure.rs:295-303. -/
structure FavOps (α : Type) extends DomainOps α where
  factorFavAssoc : α → Option (α × α)

/-- Models `GreatestCommonDivisorStructure` (required methods), rings/src/structure/structure.rs:329-332. -/
structure GcdOps (α : Type) extends FavOps α where
  gcd : α → α → Option α

/-- Models `BezoutDomainStructure` (required methods), rings/src/structure/structure.rs:408-410. -/
structure BezoutOps (α : Type) extends GcdOps α where
  xgcd : α → α → Option (α × α × α)

/-- Models `EuclideanDivisionStructure` (required methods), rings/src/structure/structure.rs:455-459.
The Rust trait does not extend `FavoriteAssociateStructure`; every Euclidean structure in the crate has it, and
`euclidean_gcd` asks for both, so they are bundled here. -/
structure EucOps (α : Type) extends FavOps α where
  norm : α → Option Nat
  quorem : α → α → Option (Option (α × α))

section SemiRing
variable {α : Type} (S : SemiRingOps α)

/-- Models `is_zero`, rings/src/structure/structure.rs:23-25. -/
def SemiRingOps.isZero (a : α) : Bool := S.equal a S.zero

/-- Models `sum`, rings/src/structure/structure.rs:34-40. -/
def SemiRingOps.sum (vals : List α) : α := vals.foldl S.add S.zero

/-- Models `product`, rings/src/structure/structure.rs:45-51. -/
def SemiRingOps.product (vals : List α) : α := vals.foldl S.mul S.one

/-- Models `nat_pow`, rings/src/structure/structure.rs:53-75. -/
def SemiRingOps.natPow (a : α) (n : Nat) : α := binPow S.mul S.one a n

/-- The body of the loop of `from_nat`: `ans += v` when the bit is set, then `v *= two`.
Models rings/src/structure/structure.rs:87-92. -/
def SemiRingOps.fromNatStep (two : α) (st : α × α) (bit : Bool) : α × α :=
  (if bit then S.add st.1 st.2 else st.1, S.mul st.2 two)

/-- Models `from_nat`, rings/src/structure/structure.rs:77-95. -/
def SemiRingOps.fromNat (x : Nat) : α :=
  if x = 0 then S.zero
  else if x = 1 then S.one
  else (x.bits.foldl (S.fromNatStep (S.add S.one S.one)) (S.zero, S.one)).1

end SemiRing

section Ring
variable {α : Type} (S : RingOps α)

/-- Models `from_int`, rings/src/structure/structure.rs:136-142 (the recursive call is on `-x ≥ 0`, so it is one
call of `from_nat`). -/
def RingOps.fromInt (x : Int) : α :=
  if x < 0 then S.neg (S.fromNat x.natAbs) else S.fromNat x.natAbs

/-- The state change of the iterator of distinct elements. Models rings/src/structure/structure.rs:606-614. -/
def genNext (next : Int) : Int := if 0 < next then -next else 1 - next

/-- The state of the iterator after `n` calls of `next`. Models rings/src/structure/structure.rs:606-621. -/
def genState : Nat → Int
  | 0 => 0
  | n + 1 => genNext (genState n)

/-- The `n`-th element of `generate_distinct_elements()`. Models rings/src/structure/structure.rs:596-622. -/
def RingOps.generated (n : Nat) : α := S.fromInt (genState n)

/-- Models the provided method `all_elements` of finite fields, given `all_units`,
rings/src/structure/structure.rs:705-709. -/
def RingOps.allElements (units : List α) : List α := S.zero :: units

end Ring

/-- `Result::unwrap` on the result of a division: an error is a panic. -/
def unwrapDiv {α : Type} : Option (Except DivErr α) → Option α
  | some (.ok q) => some q
  | _ => none

/-- `Result::is_ok`. -/
def isOkDiv {α : Type} : Except DivErr α → Bool
  | .ok _ => true
  | .error _ => false

section Domain
variable {α : Type} (S : DomainOps α)

/-- Models `inv`, rings/src/structure/structure.rs:171-173. -/
def DomainOps.inv (a : α) : Option (Except DivErr α) := S.div S.one a

/-- The `match` of `from_rat`/`int_pow`: `NotDivisible` gives `None`, `DivideByZero` panics.
Models rings/src/structure/structure.rs:180-183 and 195-199. -/
def okOrNone {α : Type} : Except DivErr α → Option (Option α)
  | .ok d => some (some d)
  | .error .notDivisible => some none
  | .error .divideByZero => none

/-- Models `from_rat`, rings/src/structure/structure.rs:175-184. The Rust code takes `x.numerator()` of a
`malachite` rational through the crate's own `numerator` (rings/src/number/rational.rs:67-74), which is signed. -/
def DomainOps.fromRat (x : ℚ) : Option (Option α) :=
  (S.div (S.fromInt x.num) (S.fromInt x.den)).bind okOrNone

/-- The branch of `int_pow` for negative exponents. Models rings/src/structure/structure.rs:194-200. -/
def DomainOps.intPowNeg (a : α) (n : Nat) : Option (Option α) :=
  ((S.inv a).bind okOrNone).map fun r => r.map fun i => S.natPow i n

/-- Models `int_pow`, rings/src/structure/structure.rs:186-201. -/
def DomainOps.intPow (a : α) (n : Int) : Option (Option α) :=
  if n = 0 then some (some S.one)
  else if S.isZero a then some (some S.zero)
  else if n > 0 then some (some (S.natPow a n.natAbs))
  else S.intPowNeg a n.natAbs

/-- Models `divisible`, rings/src/structure/structure.rs:203-209. -/
def DomainOps.divisible (a b : α) : Option Bool := (S.div a b).map isOkDiv

/-- The short-circuit conjunction `self.div(a, b).is_ok() && self.div(b, a).is_ok()`.
Models rings/src/structure/structure.rs:214. -/
def DomainOps.bothDiv (a b : α) : Option Bool :=
  (S.div a b).bind fun r => if isOkDiv r then (S.div b a).map isOkDiv else some false

/-- Models `are_associate`, rings/src/structure/structure.rs:210-216. -/
def DomainOps.areAssociate (a b : α) : Option Bool :=
  if S.equal a S.zero && S.equal b S.zero then some true else S.bothDiv a b

/-- Models `is_unit`, rings/src/structure/structure.rs:217-223. -/
def DomainOps.isUnit (a : α) : Option Bool := (S.div S.one a).map isOkDiv

/-- Models `OrderedRingStructure::abs` with `ring_cmp` given, rings/src/structure/structure.rs:259-265. -/
def RingOps.abs {α : Type} (S : RingOps α) (cmp : α → α → Ordering) (a : α) : α :=
  match cmp a S.zero with
  | .lt => S.neg a
  | .eq => S.zero
  | .gt => a

end Domain

section Fav
variable {α : Type} (S : FavOps α)

/-- Models `fav_assoc`, rings/src/structure/structure.rs:304-306. -/
def FavOps.favAssoc (a : α) : Option α := (S.factorFavAssoc a).map (·.2)

/-- Models `is_fav_assoc`, rings/src/structure/structure.rs:307-310. -/
def FavOps.isFavAssoc (a : α) : Option Bool := (S.factorFavAssoc a).map fun p => S.equal a p.2

end Fav

section Gcd
variable {α : Type} (S : GcdOps α)

/-- Models `gcd_list`, rings/src/structure/structure.rs:333-339. -/
def GcdOps.gcdList (elems : List α) : Option α := elems.foldlM S.gcd S.zero

/-- Models `lcm`, rings/src/structure/structure.rs:340-346. -/
def GcdOps.lcm (x y : α) : Option α :=
  if S.isZero x && S.isZero y then some S.zero
  else (S.gcd x y).bind fun g => unwrapDiv (S.div (S.mul x y) g)

/-- Models `lcm_list`, rings/src/structure/structure.rs:347-353. -/
def GcdOps.lcmList (elems : List α) : Option α := elems.foldlM S.lcm S.one

end Gcd

section Bezout
variable {α : Type} (S : BezoutOps α)

/-- The one-element case of `xgcd_list`. Models rings/src/structure/structure.rs:415-418. -/
def BezoutOps.xgcdOne (e : α) : Option (α × List α) :=
  (S.factorFavAssoc e).bind fun p => (unwrapDiv (S.inv p.1)).map fun i => (p.2, [i])

/-- The last step of the general case of `xgcd_list`. Models rings/src/structure/structure.rs:427-435. -/
def BezoutOps.xgcdCombine (r1 r2 : α × List α) : Option (α × List α) :=
  (S.xgcd r1.1 r2.1).map fun t => (t.1, r1.2.map (S.mul t.2.1) ++ r2.2.map (S.mul t.2.2))

/-- Models `xgcd_list`, rings/src/structure/structure.rs:411-438. -/
def BezoutOps.xgcdList (elems : List α) : Option (α × List α) :=
  match elems with
  | [] => some (S.zero, [])
  | [e] => S.xgcdOne e
  | [e, f] => (S.xgcd e f).map fun t => (t.1, [t.2.1, t.2.2])
  | e :: f :: g :: rest =>
    let l := e :: f :: g :: rest
    let k := l.length / 2
    (BezoutOps.xgcdList (l.take k)).bind fun r1 =>
      (BezoutOps.xgcdList (l.drop k)).bind fun r2 => S.xgcdCombine r1 r2
termination_by elems.length
decreasing_by
  · simp; omega
  · simp; omega

end Bezout

section Euclid
variable {α : Type} (S : EucOps α)

/-- Models `quo`, rings/src/structure/structure.rs:461-466. -/
def EucOps.quo (a b : α) : Option (Option α) := (S.quorem a b).map fun r => r.map (·.1)

/-- Models `rem`, rings/src/structure/structure.rs:468-475 (`quorem(a, b).unwrap()` panics on `None`). -/
def EucOps.rem (a b : α) : Option α :=
  if S.isZero b then some a else (S.quorem a b).bind fun r => r.map (·.2)

/-- The loop of `euclidean_gcd`. Models rings/src/structure/structure.rs:482-485. -/
def EucOps.gcdLoop (x y : α) : Option α :=
  if S.isZero y then some x
  else do
    let r ← S.rem x y
    EucOps.gcdLoop y r
partial_fixpoint

/-- Models `euclidean_gcd`, rings/src/structure/structure.rs:477-488. -/
def EucOps.euclideanGcd (x y : α) : Option α := (S.gcdLoop x y).bind S.favAssoc

/-- The variables of the loop of `euclidean_xgcd`. Models rings/src/structure/structure.rs:492-505. -/
structure XState (α : Type) where
  (x y pa a pb b : α)

/-- The body of the loop of `euclidean_xgcd` after the division. Models rings/src/structure/structure.rs:508-512. -/
def EucOps.xStep (st : XState α) (q r : α) : XState α where
  x := st.y
  y := r
  pa := st.a
  a := S.add st.pa (S.neg (S.mul q st.a))
  pb := st.b
  b := S.add st.pb (S.neg (S.mul q st.b))

/-- `self.quorem(&x, &y).unwrap()`. Models rings/src/structure/structure.rs:507. -/
def EucOps.quoremUnwrap (x y : α) : Option (α × α) := (S.quorem x y).bind id

/-- The loop of `euclidean_xgcd`. Models rings/src/structure/structure.rs:506-513. -/
def EucOps.xgcdLoop (st : XState α) : Option (XState α) :=
  if S.isZero st.y then some st
  else do
    let qr ← S.quoremUnwrap st.x st.y
    EucOps.xgcdLoop (S.xStep st qr.1 qr.2)
partial_fixpoint

/-- A `debug_assert!`: a false condition is a panic. -/
def assertThat (b : Bool) : Option Unit := if b then some () else none

/-- Models `euclidean_xgcd`, rings/src/structure/structure.rs:490-531, including its three debug assertions. -/
def EucOps.euclideanXgcd (x y : α) : Option (α × α × α) := do
  let st ← S.xgcdLoop ⟨x, y, S.one, S.zero, S.zero, S.one⟩
  let ua ← S.factorFavAssoc st.x
  let iu ← S.isUnit ua.1
  assertThat iu
  let a ← unwrapDiv (S.div st.pa ua.1)
  let b ← unwrapDiv (S.div st.pb ua.1)
  assertThat (S.equal (S.add (S.mul a x) (S.mul b y)) ua.2)
  let g ← S.euclideanGcd x y
  assertThat (S.equal ua.2 g)
  some (ua.2, a, b)

/-- A structure whose gcd and xgcd are the Euclidean ones. Models
rings/src/structure/structure.rs:654-664 (fields) and rings/src/number/integer/mod.rs:127-137 (integers). -/
def EucOps.bezout : BezoutOps α where
  toFavOps := S.toFavOps
  gcd := S.euclideanGcd
  xgcd := S.euclideanXgcd

end Euclid

section Field
variable {α : Type} (S : DomainOps α)

/-- Models `factor_fav_assoc` of a field, rings/src/structure/structure.rs:627-633. -/
def DomainOps.fieldFav : FavOps α where
  toDomainOps := S
  factorFavAssoc a := some (if S.isZero a then (S.one, S.zero) else (a, S.one))

/-- Models `norm` and `quorem` of a field, rings/src/structure/structure.rs:637-651. -/
def DomainOps.fieldEuc : EucOps α where
  toFavOps := S.fieldFav
  norm a := if S.isZero a then none else some 1
  quorem a b := if S.isZero b then some none else (unwrapDiv (S.div a b)).map fun q => some (q, S.zero)

end Field

/-- Models `FieldOfFractionsStructure::as_base_ring`, rings/src/structure/structure.rs:727-734. -/
def asBaseRing {α β : Type} (B : SemiRingOps β) (num den : α → β) (elem : α) : Option β :=
  if B.equal (den elem) B.one then some (num elem) else none

end Verif.Rings
