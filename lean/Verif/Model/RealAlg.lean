import Verif.Model.RealRoots
import Verif.Model.Factored

/-!
# Real algebraic numbers

Models rings/src/number/algebraic/real/mod.rs, the rest of rings/src/number/algebraic/real/polynomial.rs, and `root_rat_mul_poly` of
rings/src/number/algebraic/poly_tools.rs. Parameters: `simplest` (the rational that `malachite` chooses in an open interval), `fac` (`factor` of
integer polynomials) and, for sums and products of two irrational numbers, the functions `root_sum_poly` and `root_product_poly`. Methods that
change their argument return the changed value as well.
-/

namespace Verif.RealRoots

open Verif.Rings

/-- `factor` of integer polynomials, as a parameter. -/
abbrev Fac := List Int → Option (Option (Factored (List Int)))

/-- The polynomial structure of the integers, for equality and favourite associates. Models
rings/src/polynomial/polynomial.rs:710-732 over rings/src/number/integer/mod.rs. -/
def intPoly : FavOps (List Int) := intGcd.toFavOps.poly

/-- Models `RealAlgebraicRoot`, rings/src/number/algebraic/real/mod.rs:18-29. An infinite bound (`LowerBound::Inf`, `UpperBound::Inf`,
rings/src/number/algebraic/real/bounds.rs:3-13) is `none`. -/
structure ARoot where
  poly : List Int
  ta : ℚ
  tb : ℚ
  wa : Option ℚ
  wb : Option ℚ
  dir : Bool

/-- Models `RealAlgebraic`, rings/src/number/algebraic/real/mod.rs:347-351. -/
inductive RealAlg
  | rat (a : ℚ)
  | real (x : ARoot)

/-- Models `PartialOrd<UpperBound> for LowerBound` (`<`), rings/src/number/algebraic/real/bounds.rs:63-70. -/
def boundsLt : Option ℚ → Option ℚ → Bool
  | some a, some b => decide (a < b)
  | _, _ => true

/-- Models `PartialOrd<Rational> for LowerBound` (`<=`), rings/src/number/algebraic/real/bounds.rs:81-88. -/
def lowerLe : Option ℚ → ℚ → Bool
  | some a, b => decide (a ≤ b)
  | none, _ => true

/-- Models `PartialOrd<UpperBound> for Rational` (`<=`), rings/src/number/algebraic/real/bounds.rs:99-106. -/
def leUpper : ℚ → Option ℚ → Bool
  | a, some b => decide (a ≤ b)
  | _, none => true

/-- Models `check_invariants` of a root, rings/src/number/algebraic/real/mod.rs:156-192: `some true` for `Ok(())`, `none` for a failed
`assert_ne`. -/
def ARoot.check (fac : Fac) (x : ARoot) : Option Bool := do
  if !(decide (x.ta < x.tb) && boundsLt x.wa x.wb) then some false
  else
    let s ← intGcd.polyPrimSquarefreePart x.poly
    let f ← intPoly.factorFavAssoc s
    if !intPoly.equal x.poly f.2 then some false
    else
      let irr ← isIrreducibleBy fac x.poly
      if !irr then some false
      else
        let d ← intGcd.polyDegree x.poly
        if d < 2 then some false
        else do
          assertThat (evalAtRat x.poly x.ta != 0)
          assertThat (evalAtRat x.poly x.tb != 0)
          if decide (evalAtRat x.poly x.ta > 0) == decide (evalAtRat x.poly x.tb > 0) then some false
          else some (x.dir == !decide (evalAtRat x.poly x.ta > 0))

/-- Models `check_invariants`, rings/src/number/algebraic/real/mod.rs:354-368. -/
def RealAlg.check (fac : Fac) : RealAlg → Option Bool
  | .rat _ => some true
  | .real x => x.check fac

/-- `check_invariants().unwrap()`. Models rings/src/number/algebraic/real/mod.rs:492-493. -/
def ARoot.checked (fac : Fac) (x : ARoot) : Option ARoot := do
  let ok ← x.check fac
  assertThat ok
  some x

/-- Models `refine`, rings/src/number/algebraic/real/mod.rs:216-233. -/
def ARoot.refine (simplest : ℚ → ℚ → ℚ) (x : ARoot) : Option ARoot := do
  let m ← middleThird simplest x.ta x.tb (1 / 3)
  if x.dir == decide (evalAtRat x.poly m > 0) then some { x with tb := m } else some { x with ta := m }

/-- Models `refine_to_accuracy`, rings/src/number/algebraic/real/mod.rs:235-239. -/
def ARoot.refineTo (simplest : ℚ → ℚ → ℚ) (acc : ℚ) (x : ARoot) : Option ARoot := do
  if x.tb - x.ta > acc then do
    let x' ← x.refine simplest
    ARoot.refineTo simplest acc x'
  else some x
partial_fixpoint

/-- The loop of `cmp_mut` for roots; the ordering and both roots as they are left. Models rings/src/number/algebraic/real/mod.rs:243-265. -/
def cmpLoop (simplest : ℚ → ℚ → ℚ) (polysEq : Bool) (x y : ARoot) : Option (Ordering × ARoot × ARoot) := do
  if polysEq && lowerLe y.wa x.ta && leUpper x.tb y.wb then some (.eq, x, y)
  else if polysEq && lowerLe x.wa y.ta && leUpper y.tb x.wb then some (.eq, x, y)
  else if x.tb ≤ y.ta then some (.lt, x, y)
  else if y.tb ≤ x.ta then some (.gt, x, y)
  else do
    let x' ← x.refine simplest
    let y' ← y.refine simplest
    cmpLoop simplest polysEq x' y'
partial_fixpoint

/-- Models `cmp_mut` for roots, rings/src/number/algebraic/real/mod.rs:241-266. -/
def ARoot.cmpMut (simplest : ℚ → ℚ → ℚ) (x y : ARoot) : Option (Ordering × ARoot × ARoot) :=
  cmpLoop simplest (intPoly.equal x.poly y.poly) x y

/-- Models `cmp_rat_mut`, rings/src/number/algebraic/real/mod.rs:268-285. -/
def ARoot.cmpRatMut (simplest : ℚ → ℚ → ℚ) (q : ℚ) (x : ARoot) : Option (Ordering × ARoot) := do
  if x.tb ≤ q then some (.lt, x)
  else if q ≤ x.ta then some (.gt, x)
  else do
    let x' ← x.refine simplest
    ARoot.cmpRatMut simplest q x'
partial_fixpoint

/-- Models `cmp_mut`, rings/src/number/algebraic/real/mod.rs:370-383. -/
def RealAlg.cmpMut (simplest : ℚ → ℚ → ℚ) : RealAlg → RealAlg → Option (Ordering × RealAlg × RealAlg)
  | .rat a, .rat b => some (compare a b, .rat a, .rat b)
  | .rat a, .real y => (y.cmpRatMut simplest a).map fun r => (r.1.swap, .rat a, .real r.2)
  | .real x, .rat b => (x.cmpRatMut simplest b).map fun r => (r.1, .real r.2, .rat b)
  | .real x, .real y => (x.cmpMut simplest y).map fun r => (r.1, .real r.2.1, .real r.2.2)

/-- Models `partial_cmp` and `cmp`, on clones, rings/src/number/algebraic/real/mod.rs:421-431. -/
def RealAlg.cmp (simplest : ℚ → ℚ → ℚ) (a b : RealAlg) : Option Ordering := (a.cmpMut simplest b).map (·.1)

/-- The polynomial and the direction after a change of variable that turns the order around. Models
rings/src/number/algebraic/real/mod.rs:288-300, 670-680. -/
def flipPoly (p : List Int) (dir : Bool) : Option (List Int × Bool) := do
  let uf ← intPoly.factorFavAssoc p
  if intPoly.equal uf.1 [1] then some (uf.2, !dir)
  else if intPoly.equal uf.1 (intGcd.polyNeg [1]) then some (uf.2, dir)
  else none

/-- Models `neg_mut`, rings/src/number/algebraic/real/mod.rs:287-303. -/
def ARoot.neg (x : ARoot) : Option ARoot := do
  let pd ← flipPoly (intGcd.polyCompose x.poly [0, -1]) x.dir
  some ⟨pd.1, -x.tb, -x.ta, x.wb.map (- ·), x.wa.map (- ·), pd.2⟩

/-- Models `neg`, rings/src/number/algebraic/real/mod.rs:604-611. -/
def RealAlg.neg : RealAlg → Option RealAlg
  | .rat a => some (.rat (-a))
  | .real x => x.neg.map .real

/-- Models `add_rat`, rings/src/number/algebraic/real/mod.rs:467-495. -/
def ARoot.addRat (fac : Fac) (x : ARoot) (r : ℚ) : Option ARoot := do
  let p ← polyFactorPrimitiveFof ratOps intGcd (fun c : Int => (c : ℚ)) ratNumerator ratDenominator
    (ratOps.polyCompose (x.poly.map fun c : Int => (c : ℚ)) [-r, 1])
  ARoot.checked fac ⟨p.2, x.ta + r, x.tb + r, x.wa.map (· + r), x.wb.map (· + r), x.dir⟩

/-- Models `root_rat_mul_poly`, rings/src/number/algebraic/poly_tools.rs:45-81. -/
def rootRatMulPoly (fac : Fac) (p : List Int) (r : ℚ) : Option (List Int) := do
  assertThat (r != 0)
  let irr ← isIrreducibleBy fac p
  assertThat irr
  let d ← intGcd.polyDegree p
  assertThat (decide (p.length ≤ d + 1))
  let pp ← intGcd.polyPrimitivePart (p.mapIdx fun i c => ratDenominator r ^ i * ratNumerator r ^ (d - i) * c)
  let q ← pp
  let irr ← isIrreducibleBy fac q
  assertThat irr
  some q

/-- Models `mul_pos_rat`, rings/src/number/algebraic/real/mod.rs:552-571. -/
def ARoot.mulPosRat (fac : Fac) (x : ARoot) (r : ℚ) : Option ARoot := do
  assertThat (decide (0 < r))
  let q ← rootRatMulPoly fac x.poly r
  ARoot.checked fac ⟨q, x.ta * r, x.tb * r, x.wa.map (· * r), x.wb.map (· * r), x.dir⟩

/-- The upper end of an interval as used for the wide bound of the next root. Models rings/src/number/algebraic/real/polynomial.rs:156-159. -/
def ivUpper : RootIv → ℚ
  | .rational a => a
  | .real _ b _ => b

/-- The lower end of an interval as used for the wide bound of the root before. Models rings/src/number/algebraic/real/polynomial.rs:168-171. -/
def ivLower : RootIv → ℚ
  | .rational a => a
  | .real a _ _ => a

/-- Models `get_wide_interval`, rings/src/number/algebraic/real/polynomial.rs:148-177. -/
def SqRoots.wide (R : SqRoots) (idx : Nat) : Option (Option ℚ × Option ℚ) := do
  assertThat (decide (idx < R.ivs.length))
  let wa := if idx = 0 then none else R.ivs[idx - 1]?.map ivUpper
  let wb := if idx = R.ivs.length - 1 then none else R.ivs[idx + 1]?.map ivLower
  assertThat (boundsLt wa wb)
  some (wa, wb)

/-- One factor in the search of `get_real_root`: `some (some root)` if the root is found. Models
rings/src/number/algebraic/real/polynomial.rs:232-272. -/
def SqRoots.tryFactor (R : SqRoots) (idx : Nat) (a b : ℚ) (fk : List Int × Nat) : Option (Option RealAlg) := do
  assertThat (fk.2 == 1)
  let deg ← intGcd.polyDegree fk.1
  assertThat (deg != 0)
  assertThat (evalAtRat fk.1 a != 0)
  assertThat (evalAtRat fk.1 b != 0)
  if decide (evalAtRat fk.1 a ≥ 0) != decide (evalAtRat fk.1 b ≥ 0) then
    if deg = 1 then do
      let r ← uniqueLinearRoot fk.1
      some (some (.rat r))
    else do
      let w ← R.wide idx
      some (some (.real ⟨fk.1, a, b, w.1, w.2, decide (evalAtRat fk.1 b ≥ 0)⟩))
  else some none

/-- The loop over the factors; the end of the list is unreachable. Models rings/src/number/algebraic/real/polynomial.rs:232-274. -/
def SqRoots.findFactor (R : SqRoots) (idx : Nat) (a b : ℚ) : List (List Int × Nat) → Option RealAlg
  | [] => none
  | fk :: l => do
    let t ← R.tryFactor idx a b fk
    match t with
    | some x => some x
    | none => R.findFactor idx a b l

/-- Models `get_real_root`, rings/src/number/algebraic/real/polynomial.rs:224-277. -/
def SqRoots.getRealRoot (fac : Fac) (R : SqRoots) (idx : Nat) : Option RealAlg := do
  let iv ← R.ivs[idx]?
  match iv with
  | .rational r => some (.rat r)
  | .real a b _ => do
    let f ← fac R.poly
    let f ← f
    R.findFactor idx a b f.factors

/-- The root of one interval of an irreducible polynomial of degree at least two. Models
rings/src/number/algebraic/real/polynomial.rs:301-320. -/
def SqRoots.rootAt (R : SqRoots) (idx : Nat) : Option RealAlg := do
  let iv ← R.ivs[idx]?
  match iv with
  | .rational a => some (.rat a)
  | .real a b dir => do
    let w ← R.wide idx
    some (.real ⟨R.poly, a, b, w.1, w.2, dir⟩)

/-- Models `to_real_roots`, rings/src/number/algebraic/real/polynomial.rs:279-324. -/
def SqRoots.toRealRoots (fac : Fac) (R : SqRoots) : Option (List RealAlg) := do
  let irr ← isIrreducibleBy fac R.poly
  assertThat irr
  let deg ← intGcd.polyDegree R.poly
  if deg = 0 then some []
  else if deg = 1 then
    match R.ivs with
    | [] => some []
    | [.rational a] => some [.rat a]
    | [.real _ _ _] => do
      let r ← uniqueLinearRoot R.poly
      some [.rat r]
    | _ => none
  else (List.range R.ivs.length).mapM R.rootAt

/-- Models `real_roots_irreducible`, rings/src/number/algebraic/real/polynomial.rs:870-882. -/
def rootsIrreducible (fac : Fac) (p : List Int) (oa ob : Option ℚ) (inclA inclB : Bool) : Option (List RealAlg) := do
  let irr ← isIrreducibleBy fac p
  assertThat irr
  let R ← rootsSquarefree p oa ob inclA inclB
  R.toRealRoots fac

/-- The roots of one factor, each as often as its power says. Models rings/src/number/algebraic/real/polynomial.rs:895-902. -/
def factorRoots (fac : Fac) (oa ob : Option ℚ) (inclA inclB : Bool) (fk : List Int × Nat) : Option (List RealAlg) :=
  (rootsIrreducible fac fk.1 oa ob inclA inclB).map fun l => l.flatMap fun r => List.replicate fk.2 r

/-- Models `real_roots`, rings/src/number/algebraic/real/polynomial.rs:884-905. -/
def realRoots (fac : Fac) (p : List Int) (oa ob : Option ℚ) (inclA inclB : Bool) : Option (List RealAlg) := do
  assertThat (!intGcd.toSemiRingOps.poly.isZero p)
  let f ← fac p
  let f ← f
  let l ← f.factors.mapM (factorRoots fac oa ob inclA inclB)
  some l.flatten

/-- Models `all_real_roots`, rings/src/number/algebraic/real/polynomial.rs:907-909. -/
def allRealRoots (fac : Fac) (p : List Int) : Option (List RealAlg) := realRoots fac p none none false false

/-- Whether an interval overlaps the range known for the root. Models rings/src/number/algebraic/real/polynomial.rs:557-562. -/
def overlaps (t : ℚ × ℚ) : RootIv → Bool
  | .rational x => decide (t.1 < x) && decide (x < t.2)
  | .real a b _ => decide (a < t.2) && decide (t.1 < b)

/-- The test of one pair of indices (which are in range). Models rings/src/number/algebraic/real/polynomial.rs:557-562. -/
def keepRoot (groups : List SqRoots) (t : ℚ × ℚ) (ij : Nat × Nat) : Bool :=
  match groups[ij.1]?.bind (·.ivs[ij.2]?) with
  | some iv => overlaps t iv
  | none => false

/-- Refinement of one interval of one group. Models rings/src/number/algebraic/real/polynomial.rs:565-567. -/
def refineGroup (simplest : ℚ → ℚ → ℚ) (groups : List SqRoots) (ij : Nat × Nat) : Option (List SqRoots) := do
  let R ← groups[ij.1]?
  let R' ← R.refine simplest ij.2
  some (groups.set ij.1 R')

/-- The loop of `identify_real_root`. `gen i` is the `i`-th item of the iterator; the set of pairs is a list, whose order does not matter.
Models rings/src/number/algebraic/real/polynomial.rs:551-568. -/
def identifyLoop (simplest : ℚ → ℚ → ℚ) (gen : Nat → Option (ℚ × ℚ)) (i : Nat) (groups : List SqRoots) (possible : List (Nat × Nat)) :
    Option (List SqRoots × List (Nat × Nat)) := do
  if possible.length > 1 then do
    let t ← gen i
    let groups' ← (possible.filter (keepRoot groups t)).foldlM (refineGroup simplest) groups
    identifyLoop simplest gen (i + 1) groups' (possible.filter (keepRoot groups t))
  else some (groups, possible)
partial_fixpoint

/-- The pairs of indices at the start. Models rings/src/number/algebraic/real/polynomial.rs:544-549. -/
def allPairs (groups : List SqRoots) : List (Nat × Nat) :=
  (List.range groups.length).flatMap fun i => (List.range ((groups[i]?.map fun R => R.ivs.length).getD 0)).map fun j => (i, j)

/-- Models `identify_real_root`, rings/src/number/algebraic/real/polynomial.rs:528-581. -/
def identify (simplest : ℚ → ℚ → ℚ) (fac : Fac) (p : List Int) (gen : Nat → Option (ℚ × ℚ)) : Option RealAlg := do
  let s ← intGcd.polyPrimSquarefreePart p
  let f ← fac s
  let f ← f
  let groups ← f.factors.mapM fun fk => allRootsSquarefree fk.1
  let gp ← identifyLoop simplest gen 0 groups (allPairs groups)
  match gp.2 with
  | [(i, j)] => do
    let R ← gp.1[i]?
    let l ← R.toRealRoots fac
    let ans ← l[j]?
    let ok ← ans.check fac
    assertThat ok
    some ans
  | _ => none

/-- `i` refinements. Models the state of the iterators at rings/src/number/algebraic/real/mod.rs:511-515, 588-592. -/
def ARoot.refineN (simplest : ℚ → ℚ → ℚ) (x : ARoot) : Nat → Option ARoot
  | 0 => some x
  | n + 1 => do
    let y ← x.refineN simplest n
    y.refine simplest

/-- The intervals given for a sum. Models rings/src/number/algebraic/real/mod.rs:510-522 and
rings/src/number/algebraic/real/interval.rs:6-11. -/
def sumGen (simplest : ℚ → ℚ → ℚ) (x y : ARoot) (i : Nat) : Option (ℚ × ℚ) := do
  let x' ← x.refineN simplest i
  let y' ← y.refineN simplest i
  some (x'.ta + y'.ta, x'.tb + y'.tb)

/-- Models `add`, rings/src/number/algebraic/real/mod.rs:464-525. -/
def RealAlg.add (simplest : ℚ → ℚ → ℚ) (fac : Fac) (sumPoly : List Int → List Int → Option (List Int)) : RealAlg → RealAlg → Option RealAlg
  | .rat a, .rat b => some (.rat (a + b))
  | .rat a, .real y => (y.addRat fac a).map .real
  | .real x, .rat b => (x.addRat fac b).map .real
  | .real x, .real y => do
    let p ← sumPoly x.poly y.poly
    identify simplest fac p (sumGen simplest x y)

/-- The intervals given for a product. Models rings/src/number/algebraic/real/mod.rs:587-595. -/
def prodGen (simplest : ℚ → ℚ → ℚ) (x y : ARoot) (i : Nat) : Option (ℚ × ℚ) := do
  let x' ← x.refineN simplest i
  let y' ← y.refineN simplest i
  some (x'.ta * y'.ta, x'.tb * y'.tb)

/-- The part of `mul` for positive numbers. Models rings/src/number/algebraic/real/mod.rs:548-599. -/
def RealAlg.mulPos (simplest : ℚ → ℚ → ℚ) (fac : Fac) (prodPoly : List Int → List Int → Option (List Int)) : RealAlg → RealAlg → Option RealAlg
  | .rat a, .rat b => some (.rat (a * b))
  | .rat a, .real y => (y.mulPosRat fac a).map .real
  | .real x, .rat b => (x.mulPosRat fac b).map .real
  | .real x, .real y => do
    let p ← prodPoly x.poly y.poly
    identify simplest fac p (prodGen simplest x y)

/-- Models `mul`, rings/src/number/algebraic/real/mod.rs:527-601. The two debug assertions on the signs repeat the comparisons made before. -/
def RealAlg.mul (simplest : ℚ → ℚ → ℚ) (fac : Fac) (prodPoly : List Int → List Int → Option (List Int)) (x y : RealAlg) : Option RealAlg := do
  let c ← x.cmp simplest (.rat 0)
  match c with
  | .lt => do
    let n ← x.neg
    let r ← RealAlg.mul simplest fac prodPoly n y
    r.neg
  | .eq => some (.rat 0)
  | .gt => do
    let c ← y.cmp simplest (.rat 0)
    match c with
    | .lt => do
      let n ← y.neg
      let r ← RealAlg.mul simplest fac prodPoly x n
      r.neg
    | .eq => some (.rat 0)
    | .gt => RealAlg.mulPos simplest fac prodPoly x y
partial_fixpoint

/-- The loop that moves the lower bound away from zero. Models rings/src/number/algebraic/real/mod.rs:632-634. -/
def posLoop (simplest : ℚ → ℚ → ℚ) (x : ARoot) : Option ARoot := do
  if x.ta = 0 then do
    let x' ← x.refine simplest
    posLoop simplest x'
  else some x
partial_fixpoint

/-- The inverse of a positive root. Models rings/src/number/algebraic/real/mod.rs:630-685. The inverse of a zero upper bound panics. -/
def ARoot.invPos (simplest : ℚ → ℚ → ℚ) (fac : Fac) (x : ARoot) : Option ARoot := do
  assertThat (decide (0 ≤ x.ta))
  let x ← posLoop simplest x
  assertThat (decide (0 < x.ta))
  assertThat (x.wb != some 0)
  let pd ← flipPoly x.poly.reverse x.dir
  ARoot.checked fac ⟨pd.1, x.tb⁻¹, x.ta⁻¹, some ((x.wb.map (·⁻¹)).getD 0), x.wa.bind (fun a => if 0 < a then some a⁻¹ else none), pd.2⟩

/-- Models `inv`, rings/src/number/algebraic/real/mod.rs:621-686. -/
def RealAlg.inv (simplest : ℚ → ℚ → ℚ) (fac : Fac) (a : RealAlg) : Option (Except DivErr RealAlg) := do
  let c ← a.cmpMut simplest (.rat 0)
  match c.1 with
  | .lt => do
    let n ← c.2.1.neg
    let r ← RealAlg.inv simplest fac n
    match r with
    | .ok r => do
      let m ← r.neg
      some (.ok m)
    | .error e => some (.error e)
  | .eq => some (.error .divideByZero)
  | .gt =>
    match c.2.1 with
    | .rat x => some (.ok (.rat x⁻¹))
    | .real x => do
      let y ← x.invPos simplest fac
      some (.ok (.real y))
partial_fixpoint

/-- Models `div`, rings/src/number/algebraic/real/mod.rs:614-619. -/
def RealAlg.div (simplest : ℚ → ℚ → ℚ) (fac : Fac) (prodPoly : List Int → List Int → Option (List Int)) (a b : RealAlg) :
    Option (Except DivErr RealAlg) := do
  let r ← b.inv simplest fac
  match r with
  | .ok r => do
    let m ← RealAlg.mul simplest fac prodPoly a r
    some (.ok m)
  | .error e => some (.error e)

/-- The coefficients with `n - 1` zeros between them. Models rings/src/number/algebraic/real/polynomial.rs:928-936. -/
def spread (n : Nat) : List Int → List Int
  | [] => []
  | [c] => [c]
  | c :: l => c :: (List.replicate (n - 1) 0 ++ spread n l)

/-- The search for the interval of the root, from the largest interval downwards; the end of the list is unreachable. Models
rings/src/number/algebraic/real/polynomial.rs:946-974. -/
def nthSearch (simplest : ℚ → ℚ → ℚ) (fac : Fac) (R : SqRoots) (x : RealAlg) (n : Nat) : List (Nat × RootIv) → Option RealAlg
  | [] => none
  | (idx, .rational r) :: _ => do
    assertThat (decide (0 < r))
    assertThat (match x with
      | .rat q => r ^ n == q
      | .real _ => false)
    R.getRealRoot fac idx
  | (idx, .real a b _) :: l => do
    assertThat (decide (a < b))
    if 0 < a then do
      let c1 ← RealAlg.cmp simplest (.rat (a ^ n)) x
      if c1 = .gt then nthSearch simplest fac R x n l
      else do
        let c2 ← x.cmp simplest (.rat (b ^ n))
        if c2 = .gt then nthSearch simplest fac R x n l else R.getRealRoot fac idx
    else R.getRealRoot fac idx

/-- The polynomial of the number whose root is wanted. Models rings/src/number/algebraic/real/polynomial.rs:922-927. -/
def RealAlg.rootPoly : RealAlg → List Int
  | .rat q => [-ratNumerator q, ratDenominator q]
  | .real x => x.poly

/-- Models `nth_root`, rings/src/number/algebraic/real/polynomial.rs:912-979. -/
def nthRoot (simplest : ℚ → ℚ → ℚ) (fac : Fac) (x : RealAlg) (n : Nat) : Option (Except Unit RealAlg) := do
  assertThat (n != 0)
  if n = 1 then some (.ok x)
  else do
    let c ← x.cmp simplest (.rat 0)
    match c with
    | .lt => some (.error ())
    | .eq => some (.ok (.rat 0))
    | .gt => do
      let p ← intGcd.polyPrimSquarefreePart (spread n x.rootPoly)
      let R ← allRootsSquarefree p
      let r ← nthSearch simplest fac R x n ((List.range R.ivs.length).zip R.ivs).reverse
      some (.ok r)

end Verif.RealRoots
