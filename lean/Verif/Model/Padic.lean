import Verif.Model.RealAlg

/-!
# p-adic algebraic numbers: valuations, root isolation, refinement, truncation and arithmetic

The prime `p` is an argument of every function here; in the code every element carries it and `check_is_element` compares it with the
prime of the structure (rings/src/number/algebraic/padic/mod.rs:701-711). The debug assertions `is_prime(p)` are not modelled; the
theorems assume that `p` is prime. `Fac` is the function that factors integer polynomials.
-/

namespace Verif.Padic

open Verif.Rings Verif.RealRoots

/-- Models `Valuation`, rings/src/number/algebraic/padic/valuation.rs:5-9. -/
inductive Valu
  | infinity
  | finite (v : ℤ)
deriving DecidableEq, Repr

/-- Models `partial_cmp` and `cmp`, rings/src/number/algebraic/padic/valuation.rs:10-28. -/
def Valu.cmp : Valu → Valu → Ordering
  | .infinity, .infinity => .eq
  | .infinity, .finite _ => .gt
  | .finite _, .infinity => .lt
  | .finite a, .finite b => compare a b

/-- The operators `<=` and `>=` that Rust derives from `partial_cmp`. Models rings/src/number/algebraic/padic/valuation.rs:10-28. -/
def Valu.le (a b : Valu) : Bool := a.cmp b != .gt

/-- The operators `<` and `>` that Rust derives from `partial_cmp`. Models rings/src/number/algebraic/padic/valuation.rs:10-28. -/
def Valu.lt (a b : Valu) : Bool := a.cmp b == .lt

/-- `std::cmp::min` on valuations: the second argument only if it is smaller. Models rings/src/number/algebraic/padic/valuation.rs:10-28. -/
def Valu.min (a b : Valu) : Valu := if b.lt a then b else a

/-- Models `unwrap_int`, rings/src/number/algebraic/padic/valuation.rs:30-35. -/
def Valu.unwrapInt : Valu → Option ℤ
  | .infinity => none
  | .finite v => some v

/-- Models `unwrap_nat`, rings/src/number/algebraic/padic/valuation.rs:37-48. -/
def Valu.unwrapNat : Valu → Option ℕ
  | .infinity => none
  | .finite v => if v < 0 then none else some v.natAbs

/-- Models the four implementations of `+`, rings/src/number/algebraic/padic/valuation.rs:51-94. -/
def Valu.add : Valu → Valu → Valu
  | .finite a, .finite b => .finite (a + b)
  | _, _ => .infinity

/-- Models the four implementations of `-`, rings/src/number/algebraic/padic/valuation.rs:101-148. -/
def Valu.sub : Valu → Valu → Option Valu
  | _, .infinity => none
  | .infinity, .finite _ => some .infinity
  | .finite a, .finite b => some (.finite (a - b))

/-- Models the four implementations of `*`, rings/src/number/algebraic/padic/valuation.rs:154-197. -/
def Valu.mul : Valu → Valu → Valu
  | .finite a, .finite b => .finite (a * b)
  | _, _ => .infinity

/-- The loop of `padic_nat_valuation`. Models rings/src/number/algebraic/padic/valuation.rs:204-214. For `n = 0` it is not called; for
`p < 2`, which is not prime, the code panics or does not return and the model stops. -/
def natValLoop (p n k : ℕ) : ℕ :=
  if h : 2 ≤ p ∧ 0 < n then
    if n % p = 0 then natValLoop p (n / p) (k + 1) else k
  else k
termination_by n
decreasing_by exact Nat.div_lt_self h.2 (by omega)

/-- Models `padic_nat_valuation`, rings/src/number/algebraic/padic/valuation.rs:199-217. -/
def natVal (p n : ℕ) : Valu := if n = 0 then .infinity else .finite (natValLoop p n 0)

/-- Models `padic_int_valuation`, rings/src/number/algebraic/padic/valuation.rs:219-221. -/
def intVal (p : ℕ) (n : ℤ) : Valu := natVal p n.natAbs

/-- Models `padic_rat_valuation`, rings/src/number/algebraic/padic/valuation.rs:223-229; `into_numerator_and_denominator` gives the
absolute value of the numerator. -/
def ratVal (p : ℕ) (r : ℚ) : Option Valu :=
  match natVal p r.num.natAbs with
  | .infinity => some .infinity
  | .finite vn => (natVal p r.den).unwrapInt.map fun vd => .finite (vn - vd)

/-- Models `BalancablePair`, rings/src/number/algebraic/padic/isolate.rs:26-36, without the prime and the polynomial, which are passed
as arguments. -/
structure BPair where
  n : ℕ
  i : ℕ
  j : ℕ
  vfi : ℤ
  vfj : ℤ
  bv : ℤ
deriving DecidableEq, Repr

/-- Models `crossmul_balancing_value`, rings/src/number/algebraic/padic/isolate.rs:61-63. -/
def BPair.cross (bp : BPair) : ℤ := bp.vfi + bp.i * bp.bv

/-- The values of the terms at a given valuation of the variable, without the zero terms. Models
rings/src/number/algebraic/padic/isolate.rs:44-50. -/
def termVals (p : ℕ) (f : List Int) (n : ℕ) (bv : ℤ) : List ℤ :=
  (List.range (n + 1)).filterMap fun k =>
    match intVal p (intGcd.polyCoeff f k) with
    | .infinity => none
    | .finite vfk => some (vfk + k * bv)

/-- Models `is_critical`, rings/src/number/algebraic/padic/isolate.rs:43-54. -/
def BPair.isCritical (p : ℕ) (f : List Int) (bp : BPair) : Option Bool := do
  let m ← (termVals p f bp.n bp.bv).min?
  some (m == bp.cross)

/-- One pair of indices in `balancable_pairs`. Models rings/src/number/algebraic/padic/isolate.rs:106-129. -/
def pairAt (p : ℕ) (f : List Int) (n i j : ℕ) : Option BPair :=
  match intVal p (intGcd.polyCoeff f i), intVal p (intGcd.polyCoeff f j) with
  | .finite vfi, .finite vfj =>
    match intDiv (vfi - vfj) ((j - i : ℕ) : ℤ) with
    | .ok bv => some ⟨n, i, j, vfi, vfj, bv⟩
    | .error _ => none
  | _, _ => none

/-- Models `balancable_pairs`, rings/src/number/algebraic/padic/isolate.rs:97-132. -/
def balancablePairs (p : ℕ) (f : List Int) : Option (List BPair) := do
  assertThat (!intGcd.toSemiRingOps.poly.isZero f)
  let n ← intGcd.polyDegree f
  some ((List.range (n + 1)).flatMap fun i => (List.range' (i + 1) (n - i)).filterMap fun j => pairAt p f n i j)

/-- The balancable pairs that are critical, in order; `is_critical` does not panic on a balancable pair. Models
rings/src/number/algebraic/padic/isolate.rs:136-137, 555-556, 591-592. -/
def criticalPairs (p : ℕ) (f : List Int) : Option (List BPair) := do
  let bps ← balancablePairs p f
  bps.filterM (fun bp => bp.isCritical p f)

/-- Models `critical_values`, rings/src/number/algebraic/padic/isolate.rs:134-142. The hash set is a list without repetition. -/
def criticalValues (p : ℕ) (f : List Int) : Option (List ℤ) := do
  let bps ← criticalPairs p f
  some (bps.map (·.bv)).dedup

/-- One coefficient of `normalization`. Models rings/src/number/algebraic/padic/isolate.rs:76-91. -/
def normCoeff (p : ℕ) (f : List Int) (bp : BPair) (k : ℕ) : Option Int :=
  let e := bp.bv * k - bp.cross
  if 0 ≤ e then some (intGcd.polyCoeff f k * (p : ℤ) ^ e.natAbs)
  else unwrapDiv (some (intDiv (intGcd.polyCoeff f k) ((p : ℤ) ^ (-e).natAbs)))

/-- Models `normalization`, rings/src/number/algebraic/padic/isolate.rs:70-92. -/
def BPair.normalization (fac : Fac) (p : ℕ) (f : List Int) (bp : BPair) : Option (List Int) := do
  let irr ← isIrreducibleBy fac f
  assertThat irr
  let c ← bp.isCritical p f
  assertThat c
  (List.range (bp.n + 1)).mapM (normCoeff p f bp)

/-- Models `PAdicRationalBall`, rings/src/number/algebraic/padic/isolate.rs:267-274: the numbers that differ from `a` by at least the
valuation `v`. -/
structure Ball where
  a : ℚ
  v : ℤ
deriving DecidableEq, Repr

/-- Models `neg`, rings/src/number/algebraic/padic/isolate.rs:285-290. -/
def Ball.neg (b : Ball) : Ball := ⟨-b.a, b.v⟩

/-- Models `add_rat`, rings/src/number/algebraic/padic/isolate.rs:292-297. -/
def Ball.addRat (b : Ball) (q : ℚ) : Ball := ⟨b.a + q, b.v⟩

/-- Models `mul_rat`, rings/src/number/algebraic/padic/isolate.rs:299-306. -/
def Ball.mulRat (p : ℕ) (b : Ball) (q : ℚ) : Option Ball := do
  assertThat (q != 0)
  let w ← ratVal p q
  let w ← w.unwrapInt
  some ⟨b.a * q, b.v + w⟩

/-- Models `isorefine1`, rings/src/number/algebraic/padic/isolate.rs:417-454. The debug assertions repeat those of `isolate0`. -/
def isorefine1 (p : ℕ) (f : List Int) (α i β : ℕ) : List Ball :=
  let vf := intVal p (intGcd.polyEvaluate f (i : ℤ))
  if !(Valu.finite β).le vf then []
  else if (Valu.finite (2 * β - 2)).lt vf then [⟨(i : ℚ), β⟩]
  else if β ≤ α then (List.range' 1 (p - 1)).flatMap fun k => isorefine1 p f α (i + k * p ^ β) (β + 1)
  else []
termination_by α + 1 - β
decreasing_by omega

/-- Models `isorefine`, rings/src/number/algebraic/padic/isolate.rs:374-414. The debug assertions repeat those of `isolate0`. -/
def isorefine (p : ℕ) (f df : List Int) (α i β : ℕ) : List Ball :=
  let vdf := intVal p ((intOps.quotientRing ((p ^ β : ℕ) : ℤ)).polyEvaluate df (i : ℤ))
  if vdf.lt (.finite β) then isorefine1 p f α i β
  else if β ≤ α then (List.range p).flatMap fun k => isorefine p f df α (i + k * p ^ β) (β + 1)
  else []
termination_by α + 1 - β
decreasing_by omega

/-- Models `isolate0`, rings/src/number/algebraic/padic/isolate.rs:352-371. -/
def isolate0 (p : ℕ) (f : List Int) : Option (List Ball) := do
  assertThat (!intGcd.toSemiRingOps.poly.isZero f)
  let s ← intGcd.polyIsSquarefree f
  assertThat s
  let n ← intGcd.polyDegree f
  if n = 0 then some []
  else do
    let d ← intGcd.polyDiscriminant f
    let d ← d
    let α ← (intVal p d).unwrapNat
    some ((List.range' 1 (p - 1)).flatMap fun i => isorefine p f (intGcd.polyDerivative f) α i 1)

/-- One critical pair for each critical value: the first. Models rings/src/number/algebraic/padic/isolate.rs:552-565; `seen` is the
hash set. -/
def firstPairs : List ℤ → List BPair → List BPair
  | _, [] => []
  | seen, bp :: l => if seen.contains bp.bv then firstPairs seen l else bp :: firstPairs (bp.bv :: seen) l

/-- The balls of one critical pair. Models rings/src/number/algebraic/padic/isolate.rs:568-576. `int_pow` of the nonzero rational `p`
is `^`. -/
def pairBalls (fac : Fac) (p : ℕ) (f : List Int) (bp : BPair) : Option (List Ball) := do
  let g ← bp.normalization fac p f
  let bs ← isolate0 p g
  some (bs.map fun b => ⟨(p : ℚ) ^ bp.bv * b.a, b.v + bp.bv⟩)

/-- Models `isolate`, rings/src/number/algebraic/padic/isolate.rs:546-579. -/
def isolate (fac : Fac) (p : ℕ) (f : List Int) : Option (List Ball) := do
  assertThat (!intGcd.toSemiRingOps.poly.isZero f)
  let s ← intGcd.polyIsSquarefree f
  assertThat s
  let n ← intGcd.polyDegree f
  assertThat (decide (2 ≤ n))
  let cps ← criticalPairs p f
  let l ← (firstPairs [] cps).mapM (pairBalls fac p f)
  some l.flatten

/-- Models `Truncated`, rings/src/number/algebraic/padic/mod.rs:147-157, without the prime. -/
inductive Trunc
  | zero
  | nonZero (value : ℕ) (shift : ℤ) (numDigits : ℕ)
deriving DecidableEq, Repr

/-- Models the loop of `digits`, rings/src/number/algebraic/padic/mod.rs:169-177. -/
def digitsLoop (p : ℕ) : ℕ → ℕ → List ℕ
  | 0, _ => []
  | k + 1, v => v % p :: digitsLoop p k (v / p)

/-- Models `digits`, rings/src/number/algebraic/padic/mod.rs:160-181. -/
def Trunc.digits (p : ℕ) : Trunc → Option (List ℕ × ℤ)
  | .zero => none
  | .nonZero value shift n => some (digitsLoop p n value, shift)

/-- Models `rational_value`, rings/src/number/algebraic/padic/mod.rs:183-190. -/
def Trunc.rationalValue (p : ℕ) : Trunc → ℚ
  | .zero => 0
  | .nonZero value shift _ => (value : ℚ) * (p : ℚ) ^ shift

/-- The non-zero case of `truncate`. Models rings/src/number/algebraic/padic/mod.rs:237-260. -/
def truncNonZero (p : ℕ) (q : ℚ) (cutoff shift : ℤ) : Option Trunc := do
  let r := q * (p : ℚ) ^ (-shift)
  let vn ← (intVal p (ratNumerator r)).unwrapNat
  assertThat (vn == 0)
  let vd ← (intVal p (ratDenominator r)).unwrapNat
  assertThat (vd == 0)
  if cutoff ≤ shift then some .zero
  else do
    let n := (cutoff - shift).natAbs
    let pn : ℤ := (p : ℤ) ^ n
    let t ← intOps.euclideanXgcd pn (ratDenominator r)
    assertThat (t.1 == 1)
    let value ← intOps.rem (ratNumerator r * t.2.2) pn
    assertThat (decide (0 < value))
    some (.nonZero value.natAbs shift n)

/-- Models `truncate` of a rational number, rings/src/number/algebraic/padic/mod.rs:234-264. -/
def ratTruncate (p : ℕ) (q : ℚ) (cutoff : ℤ) : Option Trunc := do
  let v ← ratVal p q
  match v with
  | .infinity => some .zero
  | .finite shift => truncNonZero p q cutoff shift

mutual
/-- Models `refine0_impl`, rings/src/number/algebraic/padic/isolate.rs:508-544: the inner `none` is the `None` of the code. -/
def refine0Impl (p : ℕ) (f : List Int) (r : Ball) (target : ℤ) : Option (Option Ball) := do
  assertThat (decide (0 ≤ r.v))
  let vfc ← ratVal p (evalAtRat f r.a)
  if !(Valu.finite r.v).le vfc then some none
  else if decide (target < r.v) && (Valu.finite (2 * target - 2)).lt vfc then some (some r)
  else refine0Search p f r target 0
partial_fixpoint

/-- The loop of `refine0_impl` over the next digit. Models rings/src/number/algebraic/padic/isolate.rs:523-543. -/
def refine0Search (p : ℕ) (f : List Int) (r : Ball) (target : ℤ) (k : ℕ) : Option (Option Ball) :=
  if k < p then do
    let s ← refine0Impl p f ⟨r.a + (k : ℚ) * (p : ℚ) ^ r.v, r.v + 1⟩ target
    match s with
    | some b => some (some b)
    | none => refine0Search p f r target (k + 1)
  else some none
partial_fixpoint
end

/-- The test whether Hensel lifting can be used. Models rings/src/number/algebraic/padic/isolate.rs:478-486. -/
def henselTest (p : ℕ) (fa dfa : ℚ) : Option Bool := do
  let vfa ← ratVal p fa
  let vdfa ← ratVal p dfa
  some ((match vdfa with
    | .infinity => Valu.infinity
    | .finite w => Valu.finite (w * 2)).lt vfa)

/-- One round of the loop of `refine0`. Models rings/src/number/algebraic/padic/isolate.rs:466-503. -/
def refine0Step (p : ℕ) (f : List Int) (r : Ball) (flag : Bool) : Option (Ball × Bool) := do
  let fa := evalAtRat f r.a
  let dfa := ratOps.polyEvaluate (ratOps.polyDerivative (f.map fun c : Int => (c : ℚ))) r.a
  let h ← if flag then some true else henselTest p fa dfa
  if h then do
    assertThat (dfa != 0)
    let t ← ratTruncate p (r.a - fa / dfa) (r.v + 1)
    some (⟨t.rationalValue p, r.v + 1⟩, true)
  else do
    let s ← refine0Impl p f r (r.v + 1)
    let b ← s
    some (b, false)

/-- The loop of `refine0`. Models rings/src/number/algebraic/padic/isolate.rs:464-505. -/
def refine0Loop (p : ℕ) (f : List Int) (r : Ball) (flag : Bool) (target : ℤ) : Option Ball :=
  if r.v < target then do
    let s ← refine0Step p f r flag
    refine0Loop p f s.1 s.2 target
  else some r
partial_fixpoint

/-- Models `refine0`, rings/src/number/algebraic/padic/isolate.rs:457-506. -/
def refine0 (p : ℕ) (f : List Int) (r : Ball) (target : ℤ) : Option Ball := do
  assertThat (decide (0 ≤ r.v))
  refine0Loop p f r false target

/-- Models `refine`, rings/src/number/algebraic/padic/isolate.rs:581-611. -/
def refine (fac : Fac) (p : ℕ) (f : List Int) (r : Ball) (target : ℤ) : Option Ball := do
  let vd ← ratVal p r.a
  let vd ← vd.unwrapInt
  let cps ← criticalPairs p f
  let bp ← cps.find? fun bp => vd == bp.bv
  let g ← bp.normalization fac p f
  let s ← refine0 p g ⟨r.a * (p : ℚ) ^ (-vd), r.v - vd⟩ (target - vd)
  some ⟨s.a * (p : ℚ) ^ vd, target⟩

/-- Models `PAdicAlgebraicRoot`, rings/src/number/algebraic/padic/mod.rs:30-38, without the prime. -/
structure PRoot where
  poly : List Int
  approx : Ball
deriving DecidableEq, Repr

/-- The debug assertion after each step of `PAdicAlgebraicRoot::refine`: the value of the polynomial at the new centre is zero up to the
number of digits. Models rings/src/number/algebraic/padic/mod.rs:55-66. -/
def liftCheck (p : ℕ) (x : PRoot) : Option Unit := do
  let t ← ratTruncate p (evalAtRat x.poly x.approx.a) x.approx.v
  assertThat (t.rationalValue p == 0)

/-- Models `PAdicAlgebraicRoot::refine`, rings/src/number/algebraic/padic/mod.rs:47-68. `dbg` says whether debug assertions are
compiled in. -/
def PRoot.refine (dbg : Bool) (fac : Fac) (p : ℕ) (n : ℤ) (x : PRoot) : Option PRoot :=
  if x.approx.v < n then do
    let b ← Padic.refine fac p x.poly x.approx (x.approx.v + 1)
    let _ ← if dbg then liftCheck p ⟨x.poly, b⟩ else some ()
    PRoot.refine dbg fac p n ⟨x.poly, b⟩
  else some x
partial_fixpoint

/-- Models `PAdicAlgebraic`, rings/src/number/algebraic/padic/mod.rs:102-106. -/
inductive PAlg
  | rat (q : ℚ)
  | root (x : PRoot)
deriving DecidableEq, Repr

/-- Models `PAdicAlgebraic::refine`, rings/src/number/algebraic/padic/mod.rs:126-131. -/
def PAlg.refine (dbg : Bool) (fac : Fac) (p : ℕ) (n : ℤ) : PAlg → Option PAlg
  | .rat q => some (.rat q)
  | .root x => (x.refine dbg fac p n).map .root

/-- Models `IsolatingBall`, rings/src/number/algebraic/padic/mod.rs:13-18, without the prime. -/
structure IBall where
  c : ℚ
  v : Valu
deriving DecidableEq, Repr

/-- Models `overlap`, rings/src/number/algebraic/padic/mod.rs:21-28. -/
def IBall.overlap (p : ℕ) (x y : IBall) : Option Bool := do
  let d ← ratVal p (x.c - y.c)
  some (x.v.le d && y.v.le d)

/-- Models `isolating_ball` of a root, rings/src/number/algebraic/padic/mod.rs:70-76. -/
def PRoot.ball (x : PRoot) : IBall := ⟨x.approx.a, .finite x.approx.v⟩

/-- Models `isolating_ball`, rings/src/number/algebraic/padic/mod.rs:92-98, 119-124. -/
def PAlg.ball : PAlg → IBall
  | .rat q => ⟨q, .infinity⟩
  | .root x => x.ball

/-- Models `PAdicAlgebraicRoot::truncate`, rings/src/number/algebraic/padic/mod.rs:268-276, with the refined root. -/
def PRoot.truncate (dbg : Bool) (fac : Fac) (p : ℕ) (n : ℤ) (x : PRoot) : Option (Trunc × PRoot) := do
  let y ← x.refine dbg fac p n
  let t ← ratTruncate p y.approx.a n
  some (t, y)

/-- Models `PAdicAlgebraic::truncate`, rings/src/number/algebraic/padic/mod.rs:284-289. -/
def PAlg.truncate (dbg : Bool) (fac : Fac) (p : ℕ) (n : ℤ) : PAlg → Option (Trunc × PAlg)
  | .rat q => (ratTruncate p q n).map fun t => (t, .rat q)
  | .root x => (x.truncate dbg fac p n).map fun t => (t.1, .root t.2)

/-- Models `all_padic_roots_irreducible`, rings/src/number/algebraic/padic/mod.rs:384-409; `from_integers` panics on a zero
denominator. -/
def rootsIrreducible (fac : Fac) (p : ℕ) (f : List Int) : Option (List PAlg) := do
  let irr ← isIrreducibleBy fac f
  assertThat irr
  let n ← intGcd.polyDegree f
  if n = 1 then do
    assertThat (intGcd.polyCoeff f 1 != 0)
    some [.rat (-((intGcd.polyCoeff f 0 : ℚ) / (intGcd.polyCoeff f 1 : ℚ)))]
  else do
    let bs ← isolate fac p f
    some (bs.map fun b => .root ⟨f, b⟩)

/-- The roots of one factor, each as often as the power of the factor says. Models rings/src/number/algebraic/padic/mod.rs:416-424. -/
def factorRoots (fac : Fac) (p : ℕ) (fk : List Int × ℕ) : Option (List PAlg) :=
  (rootsIrreducible fac p fk.1).map fun l => l.flatMap fun r => List.replicate fk.2 r

/-- Models `all_padic_roots`, rings/src/number/algebraic/padic/mod.rs:411-427. -/
def allPadicRoots (fac : Fac) (p : ℕ) (f : List Int) : Option (List PAlg) := do
  assertThat (!intGcd.toSemiRingOps.poly.isZero f)
  let pf ← fac f
  let pf ← pf
  let l ← pf.factors.mapM (factorRoots fac p)
  some l.flatten

/-- Models `equal_mut`, rings/src/number/algebraic/padic/mod.rs:468-475. -/
def PRoot.equal (dbg : Bool) (fac : Fac) (p : ℕ) (x y : PRoot) : Option Bool :=
  if !intPoly.equal x.poly y.poly then some false
  else do
    let n := if y.approx.v < x.approx.v then y.approx.v else x.approx.v
    let s ← x.truncate dbg fac p n
    let t ← y.truncate dbg fac p n
    some (s.1.rationalValue p == t.1.rationalValue p)

/-- Models `equal`, rings/src/number/algebraic/padic/mod.rs:714-728. -/
def PAlg.equal (dbg : Bool) (fac : Fac) (p : ℕ) : PAlg → PAlg → Option Bool
  | .rat a, .rat b => some (a == b)
  | .root x, .root y => x.equal dbg fac p y
  | _, _ => some false

/-- Models `neg` of a root, rings/src/number/algebraic/padic/mod.rs:477-484. -/
def PRoot.neg (x : PRoot) : PRoot := ⟨intGcd.polyCompose x.poly [0, -1], x.approx.neg⟩

/-- Models `neg`, rings/src/number/algebraic/padic/mod.rs:452-457, 674-679, 786-789. -/
def PAlg.neg : PAlg → PAlg
  | .rat q => .rat (-q)
  | .root x => .root x.neg

/-- Models `add_rat`, rings/src/number/algebraic/padic/mod.rs:486-502. -/
def PRoot.addRat (x : PRoot) (q : ℚ) : Option PRoot := do
  let r ← polyFactorPrimitiveFof ratOps intGcd (fun c : Int => (c : ℚ)) ratNumerator ratDenominator
    (ratOps.polyCompose (x.poly.map fun c : Int => (c : ℚ)) [-q, 1])
  some ⟨r.2, x.approx.addRat q⟩

/-- Models `mul_rat`, rings/src/number/algebraic/padic/mod.rs:547-568. -/
def PRoot.mulRat (fac : Fac) (p : ℕ) (x : PRoot) (q : ℚ) : Option PAlg :=
  if q = 0 then some (.rat 0)
  else do
    let g ← rootRatMulPoly fac x.poly q
    let b ← x.approx.mulRat p q
    some (.root ⟨g, b⟩)

/-- The candidates that overlap a ball, after refinement. Models rings/src/number/algebraic/padic/mod.rs:530-540, 606-616, 654-664. -/
def keepCandidates (dbg : Bool) (fac : Fac) (p : ℕ) (k : ℤ) (s : IBall) (cands : List PAlg) : Option (List PAlg) := do
  let l ← cands.mapM fun r => do
    let r' ← r.refine dbg fac p k
    let o ← r'.ball.overlap p s
    some (if o then some r' else none)
  some (l.filterMap id)

/-- The loop of `add_mut`, `mul_mut` and `inv_mut`; `gen k` refines the operands and gives the ball of the result, or nothing in a round of
`inv_mut` with centre zero. Models rings/src/number/algebraic/padic/mod.rs:519-542, 591-618, 641-667. -/
def candLoop {σ : Type} (dbg : Bool) (fac : Fac) (p : ℕ) (gen : ℤ → σ → Option (Option IBall × σ)) (k : ℤ) (st : σ) (cands : List PAlg) :
    Option (List PAlg) :=
  if 1 < cands.length then do
    let g ← gen k st
    let cands' ← match g.1 with
      | some s => keepCandidates dbg fac p k s cands
      | none => some cands
    candLoop dbg fac p gen (k + 1) g.2 cands'
  else some cands
partial_fixpoint

/-- The end of the three functions. Models rings/src/number/algebraic/padic/mod.rs:543-544, 619-620, 668-669. -/
def single : List PAlg → Option PAlg
  | [r] => some r
  | _ => none

/-- The ball of a sum. Models rings/src/number/algebraic/padic/mod.rs:521-529. -/
def sumBall (dbg : Bool) (fac : Fac) (p : ℕ) (k : ℤ) (st : PRoot × PRoot) : Option (Option IBall × (PRoot × PRoot)) := do
  let x ← st.1.refine dbg fac p k
  let y ← st.2.refine dbg fac p k
  some (some ⟨x.ball.c + y.ball.c, x.ball.v.min y.ball.v⟩, (x, y))

/-- Models `add_mut`, rings/src/number/algebraic/padic/mod.rs:504-545. `sumPoly` stands for `root_sum_poly` followed by
`primitive_squarefree_part`. -/
def PRoot.add (dbg : Bool) (fac : Fac) (p : ℕ) (sumPoly : List Int → List Int → Option (List Int)) (x y : PRoot) : Option PAlg := do
  let f ← sumPoly x.poly y.poly
  let cands ← allPadicRoots fac p f
  let l ← candLoop dbg fac p (sumBall dbg fac p) 0 (x, y) cands
  single l

/-- The ball of a product. Models rings/src/number/algebraic/padic/mod.rs:593-605. -/
def prodBall (dbg : Bool) (fac : Fac) (p : ℕ) (k : ℤ) (st : PRoot × PRoot) : Option (Option IBall × (PRoot × PRoot)) := do
  let x ← st.1.refine dbg fac p k
  let y ← st.2.refine dbg fac p k
  let vy ← ratVal p y.ball.c
  let vx ← ratVal p x.ball.c
  some (some ⟨x.ball.c * y.ball.c, (vy.mul x.ball.v).min (vx.mul y.ball.v)⟩, (x, y))

/-- Models `mul_mut`, rings/src/number/algebraic/padic/mod.rs:570-621. `prodPoly` stands for `root_product_poly` followed by
`primitive_squarefree_part`. -/
def PRoot.mul (dbg : Bool) (fac : Fac) (p : ℕ) (prodPoly : List Int → List Int → Option (List Int)) (x y : PRoot) : Option PAlg := do
  let f ← prodPoly x.poly y.poly
  let cands ← allPadicRoots fac p f
  let l ← candLoop dbg fac p (prodBall dbg fac p) 0 (x, y) cands
  single l

/-- The ball of an inverse. Models rings/src/number/algebraic/padic/mod.rs:643-653. -/
def invBall (dbg : Bool) (fac : Fac) (p : ℕ) (k : ℤ) (x : PRoot) : Option (Option IBall × PRoot) := do
  let y ← x.refine dbg fac p k
  if y.ball.c = 0 then some (none, y)
  else do
    let vc ← ratVal p y.ball.c
    let w ← y.ball.v.sub (y.ball.v.min vc)
    let w ← w.sub vc
    some (some ⟨1 / y.ball.c, w⟩, y)

/-- Models `inv_mut`, rings/src/number/algebraic/padic/mod.rs:623-670. -/
def PRoot.inv (dbg : Bool) (fac : Fac) (p : ℕ) (x : PRoot) : Option PAlg := do
  let f ← intPoly.factorFavAssoc x.poly.reverse
  let irr ← isIrreducibleBy fac f.2
  assertThat irr
  let cands ← allPadicRoots fac p f.2
  let l ← candLoop dbg fac p (invBall dbg fac p) 0 x cands
  single l

/-- Models `add`, rings/src/number/algebraic/padic/mod.rs:747-764. -/
def PAlg.add (dbg : Bool) (fac : Fac) (p : ℕ) (sumPoly : List Int → List Int → Option (List Int)) : PAlg → PAlg → Option PAlg
  | .rat a, .rat b => some (.rat (a + b))
  | .rat a, .root y => (y.addRat a).map .root
  | .root x, .rat b => (x.addRat b).map .root
  | .root x, .root y => x.add dbg fac p sumPoly y

/-- Models `mul`, rings/src/number/algebraic/padic/mod.rs:766-782. -/
def PAlg.mul (dbg : Bool) (fac : Fac) (p : ℕ) (prodPoly : List Int → List Int → Option (List Int)) : PAlg → PAlg → Option PAlg
  | .rat a, .rat b => some (.rat (a * b))
  | .rat a, .root y => y.mulRat fac p a
  | .root x, .rat b => x.mulRat fac p b
  | .root x, .root y => x.mul dbg fac p prodPoly y

/-- Models `inv`, rings/src/number/algebraic/padic/mod.rs:459-464, 793-799. -/
def PAlg.inv (dbg : Bool) (fac : Fac) (p : ℕ) : PAlg → Option (Except DivErr PAlg)
  | .rat a => some (if a = 0 then .error .divideByZero else .ok (.rat (1 / a)))
  | .root x => (x.inv dbg fac p).map .ok

/-- Models `div`, rings/src/number/algebraic/padic/mod.rs:803-816. -/
def PAlg.div (dbg : Bool) (fac : Fac) (p : ℕ) (prodPoly : List Int → List Int → Option (List Int)) (a b : PAlg) :
    Option (Except DivErr PAlg) :=
  match a, b with
  | .rat a, .rat b => some (if b = 0 then .error .divideByZero else .ok (.rat (a / b)))
  | a, b => do
    let i ← b.inv dbg fac p
    match i with
    | .ok i => (a.mul dbg fac p prodPoly i).map .ok
    | .error e => some (.error e)

end Verif.Padic
