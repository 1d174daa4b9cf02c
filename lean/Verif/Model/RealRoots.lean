import Verif.Model.Polynomial
import Verif.Model.Numbers
import Verif.Model.Factored

/-!
# Isolation of the real roots of an integer polynomial

Models rings/src/number/algebraic/real/polynomial.rs (isolation, refinement, interval lists), with
rings/src/number/algebraic/bisection_gen.rs and rings/src/number/algebraic/poly_tools.rs:83-85. A panic, including one of a debug assertion,
is `none`; a loop that might not end is a `partial_fixpoint`.
-/

namespace Verif.RealRoots

open Verif.Rings

/-- The integers with the gcd of `Polynomial<Integer>`'s coefficient ring. Models rings/src/number/integer/mod.rs:127-139. -/
def intGcd : GcdOps Int := intOps.bezout.toGcdOps

/-- Models `evaluate_at_rational`, rings/src/number/algebraic/poly_tools.rs:83-85. -/
def evalAtRat (p : List Int) (x : ℚ) : ℚ := ratOps.polyEvaluate (p.map fun c : Int => (c : ℚ)) x

/-- Models `unique_linear_root`, rings/src/number/algebraic/real/polynomial.rs:6-9. -/
def uniqueLinearRoot (p : List Int) : Option ℚ := do
  let d ← intGcd.polyDegree p
  assertThat (d == 1)
  some (-((intGcd.polyCoeff p 0 : ℚ) / (intGcd.polyCoeff p 1 : ℚ)))

/-- Models `SquarefreePolyRealRootInterval`, rings/src/number/algebraic/real/polynomial.rs:17-23. -/
inductive RootIv
  | rational (a : ℚ)
  | real (a b : ℚ) (incr : Bool)
deriving DecidableEq

/-- Models `SquarefreePolyRealRoots`, rings/src/number/algebraic/real/polynomial.rs:25-33. -/
structure SqRoots where
  poly : List Int
  ivs : List RootIv

/-- The comparison of two consecutive intervals in `check_invariants`. Models rings/src/number/algebraic/real/polynomial.rs:61-110. -/
def pairCheck : RootIv → RootIv → Bool
  | .rational a, .rational x => decide (a < x)
  | .rational a, .real x y _ => decide (a < x) && decide (x < y)
  | .real a b _, .rational x => decide (a < b) && decide (b < x)
  | .real a b _, .real x y _ => decide (a < b) && decide (b ≤ x) && decide (x < y)

/-- The comparisons of consecutive intervals. Models rings/src/number/algebraic/real/polynomial.rs:60-111. -/
def orderCheck : List RootIv → Bool
  | x :: y :: l => pairCheck x y && orderCheck (y :: l)
  | _ => true

/-- The signs at the ends of one interval. Models rings/src/number/algebraic/real/polynomial.rs:113-143. -/
def signCheck (p : List Int) : RootIv → Bool
  | .rational a => evalAtRat p a == 0
  | .real a b incr =>
    !(evalAtRat p a == 0 || evalAtRat p b == 0) && !(decide (evalAtRat p a > 0) == decide (evalAtRat p b > 0)) &&
      (if incr then decide (evalAtRat p a < 0) && decide (evalAtRat p b > 0)
        else decide (evalAtRat p a > 0) && decide (evalAtRat p b < 0))

/-- The debug check that a polynomial is squarefree. Models rings/src/number/algebraic/real/polynomial.rs:608-611, 661-664 and the
same comparison at 48-57. -/
def sqfreeCheck (p : List Int) : Option Bool := do
  let s ← intGcd.polyPrimSquarefreePart p
  let ds ← intGcd.polyDegree s
  let d ← intGcd.polyDegree p
  some (ds == d)

/-- Models `check_invariants`, rings/src/number/algebraic/real/polynomial.rs:46-146: `some true` for `Ok(())`. The comparisons are made
in the order of the code, but only success or failure is kept. -/
def SqRoots.checkInvariants (R : SqRoots) : Option Bool := do
  let s ← sqfreeCheck R.poly
  some (s && orderCheck R.ivs && R.ivs.all (signCheck R.poly))

/-- Models `new_between_middle` and the first `next`, rings/src/number/algebraic/bisection_gen.rs:15-32, 46-58. `simplest` stands for
`malachite`'s `simplest_rational_in_open_interval`; the map of regions holds one interval when the first element is drawn. -/
def middleThird (simplest : ℚ → ℚ → ℚ) (a b f : ℚ) : Option ℚ := do
  assertThat (decide (a < b))
  assertThat (decide (0 < f))
  assertThat (decide (f ≤ 1))
  let midA := a + ((b - a) - (b - a) * f) / 2
  let midB := b - ((b - a) - (b - a) * f) / 2
  assertThat (decide (midA < midB))
  some (simplest midA midB)

/-- The new interval of `refine`. Models rings/src/number/algebraic/real/polynomial.rs:182-214. -/
def RootIv.refine (simplest : ℚ → ℚ → ℚ) (p : List Int) : RootIv → Option RootIv
  | .rational a => some (.rational a)
  | .real a b dir => do
    let m ← middleThird simplest a b (1 / 3)
    let e := evalAtRat p m
    if e < 0 then some (if dir then .real m b dir else .real a m dir)
    else if e = 0 then some (.rational m)
    else some (if dir then .real a m dir else .real m b dir)

/-- Models `refine`, rings/src/number/algebraic/real/polynomial.rs:179-216. -/
def SqRoots.refine (simplest : ℚ → ℚ → ℚ) (R : SqRoots) (idx : Nat) : Option SqRoots := do
  let iv ← R.ivs[idx]?
  let iv' ← iv.refine simplest R.poly
  some { R with ivs := R.ivs.set idx iv' }

/-- Models `refine_all`, rings/src/number/algebraic/real/polynomial.rs:218-222. -/
def SqRoots.refineAll (simplest : ℚ → ℚ → ℚ) (R : SqRoots) : Option SqRoots :=
  (List.range R.ivs.length).foldlM (fun R idx => R.refine simplest idx) R

/-- The count of sign changes between neighbours. Models rings/src/number/algebraic/real/polynomial.rs:593-598. -/
def signChanges : List Int → Nat
  | x :: y :: l => (if decide (x < 0) != decide (y < 0) then 1 else 0) + signChanges (y :: l)
  | _ => 0

/-- Models `sign_variations`, rings/src/number/algebraic/real/polynomial.rs:584-600. The subtraction `len() - 1` underflows on the zero
polynomial. -/
def signVariations (p : List Int) : Option Nat :=
  let nz := p.filter fun c => c != 0
  if nz.length = 0 then none else some (signChanges nz)

/-- `q_small`. Models rings/src/number/algebraic/real/polynomial.rs:632-634: `apply_map_with_powers` maps every stored coefficient, and
`degree - i` underflows if there is one above the degree. -/
def qSmall (q : List Int) : Option (List Int) := do
  let n ← intGcd.polyDegree q
  assertThat (decide (q.length ≤ n + 1))
  some (q.mapIdx fun i c => c * 2 * 2 ^ (n - i))

/-- The division by `x` of a node, with the rational root it records. Models rings/src/number/algebraic/real/polynomial.rs:617-621. -/
def nodeRoot (c k : Nat) (q : List Int) (isol : List (Nat × Nat × Bool)) : Option (List Int × List (Nat × Nat × Bool)) :=
  if intGcd.polyEvaluate q 0 = 0 then do
    let q' ← unwrapDiv (intGcd.polyDiv q intGcd.polyVar)
    some (q', isol ++ [(c, k, false)])
  else some (q, isol)

/-- The loop of `isolate_real_roots_by_collin_akritas`; the head of the list is the top of the stack.
Models rings/src/number/algebraic/real/polynomial.rs:615-645. -/
def caLoop (l : List (Nat × Nat × List Int)) (isol : List (Nat × Nat × Bool)) : Option (List (Nat × Nat × Bool)) := do
  match l with
  | [] => some isol
  | (c, k, q) :: l =>
    let qi ← nodeRoot c k q isol
    let v ← signVariations (intGcd.polyCompose (polyReversed qi.1) [1, 1])
    if v = 1 then caLoop l (qi.2 ++ [(c, k, true)])
    else if v > 1 then do
      let qs ← qSmall qi.1
      caLoop ((2 * c, k + 1, qs) :: (2 * c + 1, k + 1, intGcd.polyCompose qs [1, 1]) :: l) qi.2
    else caLoop l qi.2
partial_fixpoint

/-- Models `isolate_real_roots_by_collin_akritas`, rings/src/number/algebraic/real/polynomial.rs:603-647. -/
def isolateCA (p : List Int) : Option (List (Nat × Nat × Bool)) := do
  assertThat (intGcd.polyEvaluate p 0 != 0)
  assertThat (intGcd.polyEvaluate p 1 != 0)
  let s ← sqfreeCheck p
  assertThat s
  caLoop [(0, 0, p)] []

/-- The loop that shrinks an interval whose ends might be roots: a rational root, or an interval with different signs at its ends.
Models rings/src/number/algebraic/real/polynomial.rs:810-832. -/
def shrinkLoop (p : List Int) (a b sa sb : ℚ) : Option (ℚ ⊕ (ℚ × ℚ)) := do
  if evalAtRat p sa = 0 then some (.inl sa)
  else if evalAtRat p sb = 0 then some (.inl sb)
  else if decide (evalAtRat p sa ≥ 0) != decide (evalAtRat p sb ≥ 0) then some (.inr (sa, sb))
  else shrinkLoop p a b ((a + sa) / 2) ((sb + b) / 2)
partial_fixpoint

/-- The shrinking of an interval, if it is needed. Models rings/src/number/algebraic/real/polynomial.rs:802-835. -/
def shrink (p : List Int) (a b : ℚ) : Option (ℚ ⊕ (ℚ × ℚ)) :=
  if evalAtRat p a = 0 ∨ evalAtRat p b = 0 then
    shrinkLoop p a b ((a + (a + b) / 2) / 2) (((a + b) / 2 + b) / 2)
  else some (.inr (a, b))

/-- The interval recorded for an isolating interval of an irrational or unknown root. Models
rings/src/number/algebraic/real/polynomial.rs:799-844. -/
def openIv (p : List Int) (a b : ℚ) : Option RootIv := do
  let s ← shrink p a b
  match s with
  | .inl x => some (.rational x)
  | .inr (a, b) => do
    assertThat (evalAtRat p a != 0)
    assertThat (evalAtRat p b != 0)
    assertThat (decide (evalAtRat p a > 0) != decide (evalAtRat p b > 0))
    some (.real a b (decide (evalAtRat p b > 0)))

/-- One pass of the `interval_loop`. Models rings/src/number/algebraic/real/polynomial.rs:795-848. -/
def caInterval (p : List Int) (a b : ℚ) (t : Nat × Nat × Bool) : Option RootIv :=
  if t.2.2 then openIv p ((b - a) * ((t.1 : ℚ) / 2 ^ t.2.1) + a) ((b - a) * (((t.1 + 1 : Nat) : ℚ) / 2 ^ t.2.1) + a)
  else some (.rational ((b - a) * ((t.1 : ℚ) / 2 ^ t.2.1) + a))

/-- `[-numerator(a), denominator(a)]`. Models rings/src/number/algebraic/real/polynomial.rs:754-757, 768-771. -/
def linearAt (a : ℚ) : List Int := [-ratNumerator a, ratDenominator a]

/-- Removal of a root at an end of the range. Models rings/src/number/algebraic/real/polynomial.rs:751-759, 765-773. -/
def dropEnd (p q : List Int) (a : ℚ) : Option (List Int) :=
  if evalAtRat p a = 0 then unwrapDiv (intGcd.polyDiv q (linearAt a)) else some q

/-- The range moved to `(0, 1)`. Models rings/src/number/algebraic/real/polynomial.rs:788-793. -/
def transPoly (p : List Int) (a b : ℚ) : Option (List Int) :=
  (polyFactorPrimitiveFof ratOps intGcd (fun c : Int => (c : ℚ)) ratNumerator ratDenominator
    (ratOps.polyCompose (p.map fun c : Int => (c : ℚ)) [a, b - a])).map (·.2)

/-- The case of degree at least two with both ends given. Models rings/src/number/algebraic/real/polynomial.rs:745-860. -/
def rootsBetween (p : List Int) (a b : ℚ) (inclA inclB : Bool) : Option SqRoots := do
  assertThat (decide (a < b))
  let q ← dropEnd p p a
  let q ← dropEnd p q b
  assertThat (evalAtRat q a != 0)
  assertThat (evalAtRat q b != 0)
  let t ← transPoly q a b
  let isol ← isolateCA t
  let mid ← isol.mapM (caInterval p a b)
  let first := if evalAtRat p a = 0 ∧ inclA = true then [RootIv.rational a] else []
  let last := if evalAtRat p b = 0 ∧ inclB = true then [RootIv.rational b] else []
  let R : SqRoots := ⟨p, first ++ mid ++ last⟩
  let ok ← R.checkInvariants
  assertThat ok
  some R

/-- Whether the root of a linear polynomial is in the range. Models rings/src/number/algebraic/real/polynomial.rs:685-703. -/
def linearInRange (root : ℚ) (oa ob : Option ℚ) (inclA inclB : Bool) : Bool :=
  (match oa with
    | some a => if a < root then true else if a = root then inclA else false
    | none => true) &&
  (match ob with
    | some b => if root < b then true else if b = root then inclB else false
    | none => true)

/-- The bound on the roots. Models rings/src/number/algebraic/real/polynomial.rs:716-723. -/
def cauchyBound (p : List Int) (d : Nat) : ℚ :=
  2 + (((((List.range d).map fun i => (intGcd.polyCoeff p i).natAbs).foldl max 0 : Nat) : ℚ)) / ((intGcd.polyCoeff p d).natAbs : ℚ)

/-- The checks at the head of `real_roots_squarefree`. Models rings/src/number/algebraic/real/polynomial.rs:659-671. -/
def rangeChecks (p : List Int) (oa ob : Option ℚ) : Option Unit := do
  assertThat (!intGcd.toSemiRingOps.poly.isZero p)
  let s ← sqfreeCheck p
  assertThat s
  match oa, ob with
  | some a, some b => assertThat (decide (a < b))
  | _, _ => some ()

/-- Models `real_roots_squarefree`, rings/src/number/algebraic/real/polynomial.rs:652-862. The recursive call, made when an end is missing,
is on a range with both ends, so it is written out: its checks, then `rootsBetween`. -/
def rootsSquarefree (p : List Int) (oa ob : Option ℚ) (inclA inclB : Bool) : Option SqRoots := do
  rangeChecks p oa ob
  let d ← intGcd.polyDegree p
  if d = 0 then some ⟨p, []⟩
  else if d = 1 then do
    let root ← uniqueLinearRoot p
    if linearInRange root oa ob inclA inclB then some ⟨p, [.rational root]⟩ else some ⟨p, []⟩
  else
    let m := cauchyBound p d
    match oa, ob with
    | some a, some b => rootsBetween p a b inclA inclB
    | some a, none => do
      assertThat (decide (m > 0))
      rangeChecks p (some a) (some m)
      rootsBetween p a m inclA inclB
    | none, some b => do
      assertThat (decide (m > 0))
      rangeChecks p (some (-m)) (some b)
      rootsBetween p (-m) b inclA inclB
    | none, none => do
      assertThat (decide (m > 0))
      rangeChecks p (some (-m)) (some m)
      rootsBetween p (-m) m inclA inclB

/-- Models `all_real_roots_squarefree`, rings/src/number/algebraic/real/polynomial.rs:865-867. -/
def allRootsSquarefree (p : List Int) : Option SqRoots := rootsSquarefree p none none false false

end Verif.RealRoots
