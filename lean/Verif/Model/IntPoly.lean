import Verif.Model.Hensel
import Verif.Model.FinitePoly
import Verif.Model.PolyFactor
import Verif.Model.Natural
import Verif.Model.Sets

/-!
# Polynomials with integer coefficients: bounds and the Berlekamp–Zassenhaus algorithm

Line numbers refer to rings/src/number/integer/polynomial.rs and
rings/src/number/integer/berlekamp_zassenhaus.rs. `usize` is `Nat`, except in the `d - 1` test, whose point is machine arithmetic:
there a `usize` is a natural number below `machineRange = 2^64`.
-/

namespace Verif.Rings

/-! ## Bounds -/

/-- Models `mignotte_factor_coefficient_bound`, rings/src/number/integer/polynomial.rs:26-34. -/
def mignotteBound (f : List Int) : Option (Option Nat) :=
  match intOps.polyDegree f with
  | none => some none
  | some deg => (Natural.chooseUsize deg (deg / 2)).map fun c => some ((f.map Int.natAbs).sum * c)

/-- The maximum of a nonempty sequence (`max().unwrap()`). Models rings/src/number/integer/polynomial.rs:45-49. -/
def ratMax : List ℚ → Option ℚ
  | [] => none
  | a :: l => some (l.foldl max a)

/-- Models `cauchys_root_bound`, rings/src/number/integer/polynomial.rs:37-52. `Rational::from_integers` would panic on a zero
denominator; the leading coefficient is not zero. -/
def cauchyRootBound (f : List Int) : Option (Option ℚ) :=
  match intOps.polyDegree f with
  | none => some none
  | some d =>
    if d = 0 then some none
    else (ratMax ((List.range d).map fun i => |(intOps.polyCoeff f i : ℚ) / (intOps.polyCoeff f d : ℚ)|)).map fun m => some (1 + m)

/-! ## Modular factors -/

/-- Models `BerlekampAassenhausAlgorithmState` without the prime generator,
rings/src/number/integer/berlekamp_zassenhaus.rs:69-76. -/
structure BzState where
  poly : List Int
  degree : Nat
  minModulus : Nat

/-- Models `BerlekampAassenhausAlgorithmState::new`, rings/src/number/integer/berlekamp_zassenhaus.rs:65-67 and 79-92. -/
def BzState.new (poly : List Int) : Option BzState := do
  let degree ← intOps.polyDegree poly
  assertThat (degree != 0)
  let b ← mignotteBound poly
  let bound ← b
  some ⟨poly, degree, 2 * bound⟩

/-- Models `BerlekampZassenhausAlgorithmStateAtPrime`, rings/src/number/integer/berlekamp_zassenhaus.rs:106-113. -/
structure BzPrime where
  poly : List Int
  leadingCoeff : Int
  degree : Nat
  modulus : Int
  factors : List (List Int)

/-- The loop `while modolus() < minimum_modolus { linear_lift() }`. Models
rings/src/number/integer/berlekamp_zassenhaus.rs:125-127 and 500-502. -/
def bzLift (minModulus : Nat) (t : HenselFact Int) : Option (HenselFact Int) :=
  if intOps.henselModulus t < (minModulus : Int) then do
    let t' ← intOps.henselLinearLift t
    bzLift minModulus t'
  else some t
partial_fixpoint

/-- The branch where the degree does not drop: factor modulo `p` and lift. Models
rings/src/number/integer/berlekamp_zassenhaus.rs:120-143 and 495-502. -/
def bzModular (factor : Int → Option (Option (Factored Int))) (rand : Nat → Int) (poly : List Int) (minModulus : Nat) (p : Nat) :
    Option (Option (HenselFact Int)) := do
  let r ← (intModOps p).polyFactor rand poly
  let fac ← r
  let o ← intOps.intoHensel factor p fac poly
  match o with
  | none => some none
  | some t => (bzLift minModulus t.dontLift).map some

/-- The modular factorization at the prime `p`, `None` when the degree drops or a factor is repeated. `new_field` panics unless
its argument is irreducible. Models rings/src/number/integer/berlekamp_zassenhaus.rs:116-147. -/
def bzAtPrime (factor : Int → Option (Option (Factored Int))) (rand : Nat → Int) (poly : List Int) (degree minModulus : Nat) (p : Nat) :
    Option (Option (HenselFact Int)) := do
  let field ← intOps.newField factor p
  if field.polyDegree poly = some degree then bzModular factor rand poly minModulus p else some none

/-- Models the construction of the result of `new_at_prime`, rings/src/number/integer/berlekamp_zassenhaus.rs:128-140. -/
def BzState.finish (s : BzState) (t : HenselFact Int) : Option BzPrime := do
  let lc ← intOps.polyLeadingCoeff s.poly
  some ⟨s.poly, lc, s.degree, intOps.henselModulus t, t.factors⟩

/-- Models `new_at_prime`, rings/src/number/integer/berlekamp_zassenhaus.rs:116-147. -/
def BzState.atPrime (factor : Int → Option (Option (Factored Int))) (rand : Nat → Int) (s : BzState) (p : Nat) :
    Option (Option BzPrime) :=
  (bzAtPrime factor rand s.poly s.degree s.minModulus p).bind fun o =>
    match o with
    | none => some none
    | some t => (s.finish t).map some

/-- The loop of `next_prime`; `rand p` is the stream of random elements used for the prime `p`. Models
rings/src/number/integer/berlekamp_zassenhaus.rs:94-103. -/
def BzState.nextPrime (factor : Int → Option (Option (Factored Int))) (rand : Nat → Nat → Int) (s : BzState)
    (gen : Natural.PrimeGenerator) : Option BzPrime := do
  let pg ← gen.next
  let o ← s.atPrime factor (rand pg.1) pg.1
  match o with
  | some b => some b
  | none => BzState.nextPrime factor rand s pg.2
partial_fixpoint

/-! ## Memory stacks -/

/-- Models `MemoryStack`, rings/src/number/integer/berlekamp_zassenhaus.rs:154-168. -/
structure MemStack (β : Type) where
  values : List β
  prev : List (Nat × β)

/-- Models `MemoryStack::new`, rings/src/number/integer/berlekamp_zassenhaus.rs:171-177. -/
def MemStack.new {β : Type} (values : List β) : MemStack β := ⟨values, []⟩

/-- The number of places in which the subset and the memory agree. Models
rings/src/number/integer/berlekamp_zassenhaus.rs:185-197. -/
def MemStack.agree {β : Type} : List (Nat × β) → List Nat → Nat
  | p :: prev, s :: subset => if p.1 ≠ s then 0 else MemStack.agree prev subset + 1
  | _, _ => 0

/-- The loop `for j in i..subset.len()`; the entry `prev_calc[j - 1]` is the last one. Models
rings/src/number/integer/berlekamp_zassenhaus.rs:213-220. -/
def MemStack.fill {β : Type} (compose : β → β → β) (values : List β) : List Nat → List (Nat × β) → Option (List (Nat × β))
  | [], prev => some prev
  | ss :: rest, prev => do
    let v ← values[ss]?
    let last ← prev.getLast?
    MemStack.fill compose values rest (prev ++ [(ss, compose last.2 v)])

/-- The push of the first entry. Models rings/src/number/integer/berlekamp_zassenhaus.rs:207-211. -/
def MemStack.first {β : Type} (values : List β) (subset : List Nat) : Option (List (Nat × β)) := do
  let ss ← subset[0]?
  let v ← values[ss]?
  some [(ss, v)]

/-- The memory after `get_product`. Models rings/src/number/integer/berlekamp_zassenhaus.rs:206-220. -/
def MemStack.update {β : Type} (compose : β → β → β) (st : MemStack β) (subset : List Nat) : Option (List (Nat × β)) :=
  match MemStack.agree st.prev subset with
  | 0 => (MemStack.first st.values subset).bind fun prev => MemStack.fill compose st.values (subset.drop 1) prev
  | i + 1 => MemStack.fill compose st.values (subset.drop (i + 1)) (st.prev.take (i + 1))

/-- Models `get_product`, rings/src/number/integer/berlekamp_zassenhaus.rs:183-223. -/
def MemStack.getProduct {β : Type} (compose : β → β → β) (st : MemStack β) (subset : List Nat) : Option (β × MemStack β) := do
  assertThat (!subset.isEmpty)
  let prev ← st.update compose subset
  let r ← prev[subset.length - 1]?
  some (r.2, ⟨st.values, prev⟩)

/-! ## The d - 1 test -/

/-- The number of values of `usize`, on a 64 bit machine. Models rings/src/number/integer/berlekamp_zassenhaus.rs:271. -/
def machineRange : Nat := 2 ^ 64

/-- Models `usize::wrapping_add`. -/
def wrappingAdd (a b : Nat) : Nat := (a + b) % machineRange

/-- Models `nat_to_usize`, rings/src/number/natural/mod.rs:28-42. -/
def natToUsize (n : Nat) : Option Nat := if n < machineRange then some n else none

/-- Models `DMinusOneTestSemigroupElem`, rings/src/number/integer/berlekamp_zassenhaus.rs:236-240. -/
structure DmElem where
  bot : Nat
  degree : Nat

/-- Models `compose`, rings/src/number/integer/berlekamp_zassenhaus.rs:247-254. -/
def DmElem.compose (a b : DmElem) : DmElem := ⟨wrappingAdd a.bot b.bot, wrappingAdd a.degree b.degree⟩

/-- Models `DMinusOneTest`, rings/src/number/integer/berlekamp_zassenhaus.rs:257-260. -/
structure DmTest where
  stack : MemStack DmElem
  bound : Nat

/-- `mod_op` of integers by a nonzero modulus. Models rings/src/number/integer/berlekamp_zassenhaus.rs:303. -/
def intModOp (a m : Int) : Option Int := if m = 0 then none else some (a.fmod m)

/-- The element of one modular factor. Models rings/src/number/integer/berlekamp_zassenhaus.rs:300-314. -/
def dmElem (modulus lc : Int) (g : List Int) : Option DmElem := do
  let d ← intOps.polyDegree g
  assertThat (d != 0)
  let coeff ← intModOp (lc * intOps.polyCoeff g (d - 1)) modulus
  let bot ← natToUsize ((ratFloor ((coeff : ℚ) * ((machineRange : ℚ) / (modulus : ℚ)))).natAbs % machineRange)
  some ⟨bot, d⟩

/-- The bound in machine units. Models rings/src/number/integer/berlekamp_zassenhaus.rs:286-295. -/
def dmBound (modulus lc : Int) (root : ℚ) : Nat :=
  (natToUsize (ratCeil (((|lc| : Int) : ℚ) * root * ((machineRange : ℚ) / (modulus : ℚ)))).natAbs).getD (machineRange - 1)

/-- Models `DMinusOneTest::new`, rings/src/number/integer/berlekamp_zassenhaus.rs:262-318. -/
def DmTest.new (modulus : Int) (f : List Int) (factors : List (List Int)) : Option DmTest := do
  assertThat (modulus != 0)
  let lc ← intOps.polyLeadingCoeff f
  let c ← cauchyRootBound f
  let root ← c
  let elems ← factors.mapM (dmElem modulus lc)
  some ⟨MemStack.new elems, dmBound modulus lc root⟩

/-- Models `checked_mul(..).unwrap_or(usize::MAX)`, rings/src/number/integer/berlekamp_zassenhaus.rs:334-337. -/
def saturatingMul (a b : Nat) : Nat := if a * b < machineRange then a * b else machineRange - 1

/-- The comparison of `test`. Models rings/src/number/integer/berlekamp_zassenhaus.rs:327-343. -/
def dmDecide (bound bot d len : Nat) : Bool :=
  let top := wrappingAdd bot len
  let b1 := saturatingMul bound d
  if b1 = 0 then decide (0 < bot) && decide (bot ≤ top)
  else
    let b2 := machineRange - 1 - b1 + 1
    decide (b1 < bot) && decide (bot ≤ top) && decide (top < b2)

/-- Models `test`, rings/src/number/integer/berlekamp_zassenhaus.rs:322-344. -/
def DmTest.test (t : DmTest) (subset : List Nat) : Option (Bool × DmTest) := do
  let r ← t.stack.getProduct DmElem.compose subset
  some (dmDecide t.bound r.1.bot r.1.degree subset.length, { t with stack := r.2 })

/-! ## The search -/

/-- The representative of a coefficient nearest to zero. Models
rings/src/number/integer/berlekamp_zassenhaus.rs:402-409 and 521-528. -/
def centredRep (modulus c : Int) : Option Int := do
  let c ← intOps.rem c modulus
  let q ← intOps.quo modulus 2
  let half ← q
  some (if c > half then c - modulus else c)

/-- The candidate for a factor made from a product of modular factors. Models
rings/src/number/integer/berlekamp_zassenhaus.rs:398-411 and 512-530. -/
def bzCandidate (modulus lc : Int) (prod : List Int) : Option (List Int) := do
  let lifted ← (intOps.polyMul (polyConst lc) prod).mapM (centredRep modulus)
  let pp ← intOps.bezout.toGcdOps.polyPrimitivePart lifted
  pp

/-- The variables of `factor_by_try_all_subsets` (`k` and the iterator are passed separately). Models
rings/src/number/integer/berlekamp_zassenhaus.rs:363-376. -/
structure BzSearch where
  dm : DmTest
  stack : MemStack (List Int)
  factored : Factored (List Int)
  excluded : List Nat
  f : List Int
  m : Nat

/-- Exclusion of several items from the iterator. Models rings/src/number/integer/berlekamp_zassenhaus.rs:387-390 and 427-430. -/
def excludeAll (c : Sets.Comb) (l : List Nat) : Option Sets.Comb := l.foldlM (fun c i => c.exclude i) c

/-- The branch where the candidate divides `f`. Models rings/src/number/integer/berlekamp_zassenhaus.rs:415-431. -/
def bzFound (k : Nat) (subset : List Nat) (g h : List Int) (s : BzSearch) (c : Sets.Comb) : Option (BzSearch × Sets.Comb) := do
  let irr ← Factored.factoredIrreducible intOps.toFavOps.poly g
  let factored ← Factored.mul intOps.toFavOps.poly s.factored irr
  assertThat (decide (k ≤ s.m))
  let c' ← excludeAll c subset
  some ({ s with f := h, factored := factored, m := s.m - k, excluded := s.excluded ++ subset }, c')

/-- The division test. Models rings/src/number/integer/berlekamp_zassenhaus.rs:414-434. -/
def bzDivide (k : Nat) (subset : List Nat) (g : List Int) (s : BzSearch) (c : Sets.Comb) : Option (BzSearch × Sets.Comb) :=
  (intOps.polyDiv s.f g).bind fun r =>
    match r with
    | .ok h => bzFound k subset g h s c
    | .error .notDivisible => some (s, c)
    | .error .divideByZero => none

/-- The part of the body of the inner loop after the `d - 1` test. Models
rings/src/number/integer/berlekamp_zassenhaus.rs:398-434. -/
def bzCheck (b : BzPrime) (k : Nat) (subset : List Nat) (s : BzSearch) (c : Sets.Comb) : Option (BzSearch × Sets.Comb) := do
  let r ← s.stack.getProduct (intOps.quotientRing b.modulus).polyMul subset
  let g ← bzCandidate b.modulus b.leadingCoeff r.1
  let d ← intOps.polyDegree g
  assertThat (d != 0)
  bzDivide k subset g { s with stack := r.2 } c

/-- The body of the inner loop for one subset. Models rings/src/number/integer/berlekamp_zassenhaus.rs:393-435. -/
def bzTry (b : BzPrime) (k : Nat) (subset : List Nat) (s : BzSearch) (c : Sets.Comb) : Option (BzSearch × Sets.Comb) := do
  let t ← s.dm.test subset
  if t.1 then some ({ s with dm := t.2 }, c) else bzCheck b k subset { s with dm := t.2 } c

/-- The inner loop. Models rings/src/number/integer/berlekamp_zassenhaus.rs:391-440. -/
def bzInner (b : BzPrime) (k : Nat) (s : BzSearch) (c : Sets.Comb) : Option BzSearch := do
  let oc ← c.next
  match oc.1 with
  | none => some s
  | some subset => do
    let r ← bzTry b k subset s oc.2
    bzInner b k r.1 r.2
partial_fixpoint

/-- The exclusion of the last modular factor when half of the remaining ones are looked for (`n - 1` underflows for `n = 0`). Models
rings/src/number/integer/berlekamp_zassenhaus.rs:383-386. -/
def bzHalve (n k m : Nat) (c : Sets.Comb) : Option Sets.Comb :=
  if 2 * k = m then (if n = 0 then none else c.exclude (n - 1)) else some c

/-- The outer loop. Models rings/src/number/integer/berlekamp_zassenhaus.rs:381-442. -/
def bzOuter (b : BzPrime) (n k : Nat) (s : BzSearch) : Option BzSearch :=
  if k ≤ s.m / 2 then do
    let c ← bzHalve n k s.m (Sets.Comb.new n k)
    let c' ← excludeAll c s.excluded
    let s' ← bzInner b k s c'
    bzOuter b n (k + 1) s'
  else some s
partial_fixpoint

/-- The multiplication by the last irreducible factor. Models rings/src/number/integer/berlekamp_zassenhaus.rs:445-450. -/
def bzLast (s : BzSearch) : Option (Factored (List Int)) :=
  if 0 < s.m then do
    let irr ← Factored.factoredIrreducible intOps.toFavOps.poly s.f
    Factored.mul intOps.toFavOps.poly s.factored irr
  else some s.factored

/-- Models `factor_by_try_all_subsets`, rings/src/number/integer/berlekamp_zassenhaus.rs:358-453. -/
def BzPrime.factorSubsets (b : BzPrime) : Option (Factored (List Int)) := do
  let dm ← DmTest.new b.modulus b.poly b.factors
  let _ ← intOps.newRing b.modulus
  let s ← bzOuter b b.factors.length 1
    ⟨dm, MemStack.new b.factors, Factored.factoredOne intOps.toFavOps.poly, [], b.poly, b.factors.length⟩
  bzLast s

/-- The general case of the function given to Yun's algorithm. Models
rings/src/number/integer/berlekamp_zassenhaus.rs:470-471. -/
def bzGeneral (factor : Int → Option (Option (Factored Int))) (rand : Nat → Nat → Int) (f : List Int) :
    Option (Factored (List Int)) := do
  let s ← BzState.new f
  let b ← s.nextPrime factor rand Natural.PrimeGenerator.new
  b.factorSubsets

/-- The function given to Yun's algorithm. Models rings/src/number/integer/berlekamp_zassenhaus.rs:467-472. -/
def bzSqfree (factor : Int → Option (Option (Factored Int))) (rand : Nat → Nat → Int) (f : List Int) :
    Option (Factored (List Int)) := do
  let d ← intOps.polyDegree f
  if d = 0 then some (Factored.factoredUnit f) else bzGeneral factor rand f

/-- Models `factorize_by_berlekamp_zassenhaus_algorithm`, rings/src/number/integer/berlekamp_zassenhaus.rs:458-476 and `factor` of
integer polynomials, rings/src/number/integer/polynomial.rs:12-18. -/
def bzFactorize (factor : Int → Option (Option (Factored Int))) (rand : Nat → Nat → Int) (f : List Int) :
    Option (Option (Factored (List Int))) :=
  if intOps.toSemiRingOps.poly.isZero f then some none
  else ((intUfd factor).factorizeYun intOps.bezout.toGcdOps.polyGcdPrimSub (bzSqfree factor rand) f).map some

/-! ## The naive version -/

/-- The choice of the modular factors by a list of booleans. Models
rings/src/number/integer/berlekamp_zassenhaus.rs:514-519. -/
def chosenFactors {β : Type} (subset : List Bool) (l : List β) : List β :=
  ((subset.zip l).filter (·.1)).map (·.2)

/-- The test of one candidate. Models rings/src/number/integer/berlekamp_zassenhaus.rs:532-545. -/
def bzNaiveTestPoly (f : List Int) (fDeg : Nat) (g : List Int) : Option (Option (List Int × List Int)) :=
  (intOps.polyDegree g).bind fun d => if d ≠ 0 ∧ d ≠ fDeg then intOps.tryFactor f g else some none

/-- The body of the search loop. Models rings/src/number/integer/berlekamp_zassenhaus.rs:508-546. -/
def bzNaiveTest (f : List Int) (fDeg : Nat) (lc modulus : Int) (factors : List (List Int)) (subset : List Bool) :
    Option (Option (List Int × List Int)) :=
  (bzCandidate modulus lc (intOps.toSemiRingOps.poly.product (chosenFactors subset factors))).bind fun g => bzNaiveTestPoly f fDeg g

/-- The search at a prime. Models rings/src/number/integer/berlekamp_zassenhaus.rs:504-547. -/
def bzNaiveSearch (f : List Int) (fDeg : Nat) (t : HenselFact Int) : Option (FindFactorResult (List Int)) :=
  (intOps.polyLeadingCoeff f).bind fun lc =>
    searchFactor (bzNaiveTest f fDeg lc (intOps.henselModulus t) t.factors)
      (Factored.multiCartesianProduct (List.replicate t.factors.length [false, true]))

/-- The modular factorization at a prime in the naive version, which `unwrap`s the degree modulo `p`. Models
rings/src/number/integer/berlekamp_zassenhaus.rs:492-502. -/
def bzNaiveAtPrime (factor : Int → Option (Option (Factored Int))) (rand : Nat → Int) (poly : List Int) (degree minModulus : Nat)
    (p : Nat) : Option (Option (HenselFact Int)) := do
  let field ← intOps.newField factor p
  let d ← field.polyDegree poly
  if d = degree then bzModular factor rand poly minModulus p else some none

/-- The loop over the primes. Models rings/src/number/integer/berlekamp_zassenhaus.rs:490-553. -/
def bzNaiveLoop (factor : Int → Option (Option (Factored Int))) (rand : Nat → Nat → Int) (f : List Int) (fDeg minModulus : Nat)
    (gen : Natural.PrimeGenerator) : Option (FindFactorResult (List Int)) := do
  let pg ← gen.next
  let o ← bzNaiveAtPrime factor (rand pg.1) f fDeg minModulus pg.1
  match o with
  | some t => bzNaiveSearch f fDeg t
  | none => bzNaiveLoop factor rand f fDeg minModulus pg.2
partial_fixpoint

/-- Models `find_factor_primitive_sqfree_by_berlekamp_zassenhaus_algorithm_naive`,
rings/src/number/integer/berlekamp_zassenhaus.rs:479-555. -/
def bzNaiveFindFactor (factor : Int → Option (Option (Factored Int))) (rand : Nat → Nat → Int) (f : List Int) :
    Option (FindFactorResult (List Int)) := do
  let fDeg ← intOps.polyDegree f
  assertThat (fDeg != 0)
  let b ← mignotteBound f
  let bound ← b
  if fDeg = 1 then some .irreducible else bzNaiveLoop factor rand f fDeg (2 * bound) Natural.PrimeGenerator.new

/-- Models `factorize_by_berlekamp_zassenhaus_algorithm_naive`, rings/src/number/integer/berlekamp_zassenhaus.rs:559-574. -/
def bzNaiveFactorize (factor : Int → Option (Option (Factored Int))) (rand : Nat → Nat → Int) (f : List Int) :
    Option (Option (Factored (List Int))) :=
  if intOps.toSemiRingOps.poly.isZero f then some none
  else ((intUfd factor).factorizeYun intOps.bezout.toGcdOps.polyGcdPrimSub
    (factorizeByFindFactor intOps.toFavOps.poly (bzNaiveFindFactor factor rand)) f).map some

end Verif.Rings
