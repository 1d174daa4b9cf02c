import Verif.Model.Structure
import Verif.Model.Natural
import Mathlib.Data.Rat.Floor

/-!
# The integers, the rationals and quotient rings as structures
-/

namespace Verif.Rings

/-- Models `SemiRingStructure for CannonicalStructure<Natural>`, rings/src/number/natural/mod.rs:13-26. -/
def natOps : SemiRingOps Nat where
  equal a b := a == b
  zero := 0
  one := 1
  add a b := a + b
  mul a b := a * b

/-- Models the ring operations of the integers, rings/src/number/integer/mod.rs:22-44. -/
def intRing : RingOps Int where
  equal a b := a == b
  zero := 0
  one := 1
  add a b := a + b
  mul a b := a * b
  neg a := -a

/-- Models `quorem` of the integers, rings/src/number/integer/mod.rs:118-124. `malachite`'s `div_mod` rounds the quotient
towards minus infinity. -/
def intQuorem (a b : Int) : Option (Int × Int) :=
  if b = 0 then none else some (a.fdiv b, a.fmod b)

/-- Models `div` of the integers, rings/src/number/integer/mod.rs:46-59. -/
def intDiv (a b : Int) : Except DivErr Int :=
  match intQuorem a b with
  | some (q, r) => if r = 0 then .ok q else .error .notDivisible
  | none => .error .divideByZero

/-- Models `factor_fav_assoc` of the integers, rings/src/number/integer/mod.rs:73-83. -/
def intFav (a : Int) : Int × Int :=
  if a = 0 then (1, 0) else if a < 0 then (-1, -a) else (1, a)

/-- Models `norm` of the integers, rings/src/number/integer/mod.rs:110-116. -/
def intNorm (a : Int) : Option Nat := if a = 0 then none else some a.natAbs

/-- The integers as a Euclidean structure. Models rings/src/number/integer/mod.rs:22-125. -/
def intOps : EucOps Int where
  toRingOps := intRing
  div a b := some (intDiv a b)
  factorFavAssoc a := some (intFav a)
  norm := intNorm
  quorem a b := some (intQuorem a b)

/-- Models `all_units` of the integers, rings/src/number/integer/mod.rs:67-71. -/
def intUnits : List Int := [1, -1]

/-- Models the rationals, rings/src/number/rational.rs:14-46. -/
def ratOps : DomainOps ℚ where
  equal a b := a == b
  zero := 0
  one := 1
  add a b := a + b
  mul a b := a * b
  neg a := -a
  div a b := some (if b = 0 then .error .divideByZero else .ok (a / b))

/-- Models `numerator` of the rationals, rings/src/number/rational.rs:67-74 (`numerator_ref` is the absolute value). -/
def ratNumerator (x : ℚ) : Int := if 0 ≤ x then (x.num.natAbs : Int) else -(x.num.natAbs : Int)

/-- Models `denominator` of the rationals, rings/src/number/rational.rs:76-78. -/
def ratDenominator (x : ℚ) : Int := x.den

/-- Models `floor` of the rationals, rings/src/number/rational.rs:82-84. -/
def ratFloor (x : ℚ) : Int := ⌊x⌋

/-- Models `ceil` of the rationals, rings/src/number/rational.rs:85-87. -/
def ratCeil (x : ℚ) : Int := -ratFloor (-x)

/-- Models `round` of the rationals, rings/src/number/rational.rs:88-90. -/
def ratRound (x : ℚ) : Int := ratFloor (x + 1 / 2)

section Quotient
variable {α : Type} (S : EucOps α) (m : α)

/-- Models `reduce`, rings/src/structure/quotient.rs:27-29. A panic of `quorem` is modelled by returning `a`
unchanged, so that the ring operations of the quotient are total functions; `C42_no_panic` shows that this case does
not occur when `m` is not zero. -/
def EucOps.reduce (a : α) : α := (S.rem a m).getD a

/-- Models the ring operations of `QuotientStructure`, rings/src/structure/quotient.rs:88-131. -/
def EucOps.quotientRing : RingOps α where
  equal a b := S.isZero (S.reduce m (S.add a (S.neg b)))
  zero := S.zero
  one := S.one
  add a b := S.reduce m (S.add a b)
  mul a b := S.reduce m (S.mul a b)
  neg a := S.neg a

/-- The `match` at the end of `div`: `DivideByZero` is `unreachable!()`.
Models rings/src/structure/quotient.rs:154-158. -/
def EucOps.quotientDivFinish (a : α) : Except DivErr α → Option (Except DivErr α)
  | .ok d => some (.ok (S.reduce m (S.mul a d)))
  | .error .notDivisible => some (.error .notDivisible)
  | .error .divideByZero => none

/-- The division branch of `div`. Models rings/src/structure/quotient.rs:144-158, including the debug assertion. -/
def EucOps.quotientDivNonzero (top bot : α) : Option (Except DivErr α) := do
  let t ← S.euclideanXgcd bot m
  assertThat (S.equal t.1 (S.add (S.mul t.2.1 bot) (S.mul t.2.2 m)))
  let r ← S.div top t.1
  S.quotientDivFinish m t.2.1 r

/-- Models `div` of a quotient field, rings/src/structure/quotient.rs:136-160. -/
def EucOps.quotientDiv (top bot : α) : Option (Except DivErr α) :=
  if (S.quotientRing m).isZero bot then some (.error .divideByZero) else S.quotientDivNonzero m top bot

/-- The quotient field. Models rings/src/structure/quotient.rs:133-165. -/
def EucOps.quotientField : DomainOps α where
  toRingOps := S.quotientRing m
  div := S.quotientDiv m

end Quotient

end Verif.Rings
