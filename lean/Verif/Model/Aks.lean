import Verif.Model.Natural

/-!
# The AKS primality test

Models `aks_primality_test`, rings/src/number/natural/primes.rs:138-474. `none` is a panic or an endless loop. `dbg` says whether debug
assertions are enabled. Numbers of type `usize` are unbounded, except for the conversion `nat_to_usize`.
-/

namespace Verif.Natural

/-- `r0 = max(3, (bitcount(n) - 1)^2 / 100)`. Models rings/src/number/natural/primes.rs:146-154. -/
def aksR0 (n : Nat) : Nat :=
  let l := bitcount n - 1
  let r0 := l * l / 100
  if r0 < 3 then 3 else r0

/-- How the search for `r` ends: with an answer about `n` or with `r`. -/
inductive AksR where
  | answer (a : PrimalityTestResult)
  | found (r : Nat)
deriving DecidableEq, Repr

/-- The search for the smallest prime `r ≥ r0` with `n` a primitive root modulo `r`. `isPrime` is the primality test used to factor `r - 1`.
Models rings/src/number/natural/primes.rs:156-181. -/
def aksFindR (isPrime : Nat → Option Bool) (n r0 : Nat) (g : PrimeGenerator) : Option AksR := do
  let (r, g') ← g.next
  if r < r0 then aksFindR isPrime n r0 g'
  else
    let a ← isPrimitiveRoot isPrime (fromPrime r) n
    match a with
    | .nonUnit => if n = r then some (.answer .prime) else some (.answer .composite)
    | .no => aksFindR isPrime n r0 g'
    | .yes => some (.found r)
partial_fixpoint

/-- The exponents `(phi_r, d, i, j)`. Models rings/src/number/natural/primes.rs:184-210. -/
def aksParams (r : Nat) : Nat × Nat × Nat × Nat :=
  let phi := r - 1
  let d := phi / 2
  let i := 475 * phi / 1000
  let i := if i > d then d else i
  let j := 475 * phi / 1000
  let max := phi - 1 - d
  let j := if j > max then max else j
  (phi, d, i, j)

/-- The closure `lhs`. Models rings/src/number/natural/primes.rs:221-231. -/
def aksLhs (phi d i j s : Nat) : Nat :=
  let twoS := 2 * s
  if i > twoS then 0
  else choose twoS i * choose d i * choose (twoS - i) j * choose (phi - 1 - d) j

/-- The inner loop of the search for `s`. `s - 2 ^ k` panics when it is negative. Models rings/src/number/natural/primes.rs:250-272. -/
def aksShrink (lhs : Nat → Nat) (rhs : Nat) : Nat → Nat → Option Nat
  | k, s =>
    if s < 2 ^ k then none
    else if lhs (s - 2 ^ k) < rhs then
      match k with
      | 0 => some s
      | k + 1 => aksShrink lhs rhs k s
    else if lhs (s - 2 ^ k) = rhs then some s
    else
      match k with
      | 0 => some (s - 2 ^ 0)
      | k + 1 => aksShrink lhs rhs k (s - 2 ^ (k + 1))

/-- The outer loop of the search for `s`; `step_pow -= 1` panics at zero. Models rings/src/number/natural/primes.rs:233-274. -/
def aksGrow (lhs : Nat → Nat) (rhs : Nat) (k s : Nat) : Option Nat :=
  let s' := s + 2 ^ k
  if lhs s' < rhs then aksGrow lhs rhs (k + 1) s'
  else if lhs s' = rhs then some s'
  else if k = 0 then none
  else aksShrink lhs rhs (k - 1) s'
partial_fixpoint

/-- The value `s` with its debug assertions. Models rings/src/number/natural/primes.rs:212-283. -/
def aksS (dbg : Bool) (n r : Nat) : Option Nat := do
  let (phi, d, i, j) := aksParams r
  let e ← nthRootCeil (phi / 3) 2
  let rhs := pow n e
  let lhs := aksLhs phi d i j
  let s ← aksGrow lhs rhs 0 0
  if dbg && !(decide (rhs ≤ lhs s) && (decide (s ≤ 1) || decide (lhs (s - 1) < rhs))) then none else some s

/-- The set `S = {2, …, s + 1}`. Models rings/src/number/natural/primes.rs:285-294. -/
def aksSet (s : Nat) : List Nat := List.range' 2 s

/-- The loop body that all three loops of gcd tests share: `some a` is `return a`. Models rings/src/number/natural/primes.rs:296-309,
317-328 and 337-348. -/
def aksGcds (n : Nat) : List Nat → Option PrimalityTestResult
  | [] => none
  | v :: rest =>
    let g := gcd n v
    if g ≠ 1 then (if g = n then some (tryDivisors n) else some .composite) else aksGcds n rest

/-- The numbers `b b' - 1` for `b` at or before `b'`, in the order of the loops. Models rings/src/number/natural/primes.rs:313-317. -/
def aksProducts : List Nat → List Nat
  | [] => []
  | b :: t => ((b :: t).map fun c => b * c - 1) ++ aksProducts t

/-- The numbers `b' - b` for `b` before `b'`, in the order of the loops. Models rings/src/number/natural/primes.rs:333-337. -/
def aksDifferences : List Nat → List Nat
  | [] => []
  | b :: t => (t.map fun c => c - b) ++ aksDifferences t

/-- `b^(n-1) ≠ 1 mod n`. `mod_pow` is malachite's modular power, trusted to be `x^e mod n`. Models
rings/src/number/natural/primes.rs:352-357. -/
def aksFermat (n b : Nat) : Bool := decide ((b % n) ^ (n - 1) % n ≠ 1)

/-- `coeff_size`. Models rings/src/number/natural/primes.rs:364. -/
def aksSize (n r : Nat) : Nat := bitcount (n * n * r)

/-- `poly_to_bigint`. Models rings/src/number/natural/primes.rs:375-381. -/
def aksEncode (cs : Nat) (p : List Nat) : Nat :=
  p.zipIdx.foldl (fun t ci => t + ci.1 <<< (ci.2 * cs)) 0

/-- `bigint_to_poly` (debug only). Models rings/src/number/natural/primes.rs:383-393. -/
def aksDecode (n cs : Nat) : Nat → Nat → List Nat
  | 0, _ => []
  | k + 1, z => z % (1 <<< cs) % n :: aksDecode n cs k (z / (1 <<< cs))

/-- The update of the inner loop of `mul_polys_naive`. Models rings/src/number/natural/primes.rs:400. -/
def aksNaiveStep (n r : Nat) (a b s : List Nat) (i j : Nat) : List Nat :=
  s.set ((i + j) % r) ((s.getD ((i + j) % r) 0 + a.getD i 0 * b.getD j 0) % n)

/-- `mul_polys_naive` (debug only). Models rings/src/number/natural/primes.rs:396-404. -/
def aksNaive (n r : Nat) (a b : List Nat) : List Nat :=
  (List.range r).foldl (fun s i => (List.range r).foldl (fun s j => aksNaiveStep n r a b s i j) s) (List.replicate r 0)

/-- `reduce_coeffs`. Models rings/src/number/natural/primes.rs:407-415. -/
def aksReduce (n r cs a : Nat) : Nat :=
  (List.range r).foldl (fun b i => b ||| ((a &&& ((1 <<< cs - 1) <<< (i * cs))) >>> (i * cs) % n) <<< (cs * i)) 0

/-- `mul_polys` with its debug assertion. Models rings/src/number/natural/primes.rs:417-433. -/
def aksMul (dbg : Bool) (n r cs a b : Nat) : Option Nat :=
  let s := aksReduce n r cs (a * b % (1 <<< (cs * r) - 1))
  if dbg && !decide (s = aksEncode cs (aksNaive n r (aksDecode n cs r a) (aksDecode n cs r b))) then none else some s

/-- The loop of `nthpow_poly` over the bits of the exponent. Models rings/src/number/natural/primes.rs:439-444. -/
def aksPowLoop (dbg : Bool) (n r cs : Nat) : List Bool → Nat → Nat → Option Nat
  | [], s, _ => some s
  | bit :: rest, s, poly => do
    let s ← if bit then aksMul dbg n r cs s poly else some s
    let poly ← aksMul dbg n r cs poly poly
    aksPowLoop dbg n r cs rest s poly

/-- `nthpow_poly`. Models rings/src/number/natural/primes.rs:437-446. -/
def aksPow (dbg : Bool) (n r cs poly k : Nat) : Option Nat :=
  aksPowLoop dbg n r cs k.bits (aksEncode cs ((List.replicate r 0).set 0 1)) poly

/-- `(x + b)^n = x^n + b` modulo `x^r - 1` and `n`; `r_usize` is `r`. Models rings/src/number/natural/primes.rs:449-465. -/
def aksIdentity (dbg : Bool) (n r cs b : Nat) : Option Bool := do
  let lhs ← aksPow dbg n r cs (aksEncode cs (((List.replicate r 0).set 0 b).set 1 1)) n
  let p := (List.replicate r 0).set 0 b
  let rhs := aksEncode cs (p.set (n % r) (p.getD (n % r) 0 + 1))
  some (decide (lhs = rhs))

/-- The last loop: `true` if all identities hold. Models rings/src/number/natural/primes.rs:448-468. -/
def aksIdentities (dbg : Bool) (n r cs : Nat) : List Nat → Option Bool
  | [] => some true
  | b :: rest => do
    let ok ← aksIdentity dbg n r cs b
    if ok then aksIdentities dbg n r cs rest else some false

/-- The tests after `r` is found. Models rings/src/number/natural/primes.rs:184-471. -/
def aksTests (dbg : Bool) (n r : Nat) : Option PrimalityTestResult := do
  let s ← aksS dbg n r
  let S := aksSet s
  match aksGcds n S with
  | some a => some a
  | none =>
  match aksGcds n (aksProducts S) with
  | some a => some a
  | none =>
  match aksGcds n (aksDifferences S) with
  | some a => some a
  | none =>
  if S.any (aksFermat n) then some .composite
  else if 2 ^ 64 ≤ r then none
  else do
    let ok ← aksIdentities dbg n r (aksSize n r) S
    if ok then some .prime else some .composite

/-- Models `aks_primality_test`, rings/src/number/natural/primes.rs:138-474. `nat_to_usize(&r).unwrap()` (line 363) panics for `r ≥ 2^64`. -/
def aks (dbg : Bool) (isPrime : Nat → Option Bool) (n : Nat) : Option PrimalityTestResult := do
  let p ← isPowerTest n
  match p with
  | .zero => some .zero
  | .one => some .one
  | .power _ _ => some .composite
  | .no => do
    let a ← aksFindR isPrime n (aksR0 n) PrimeGenerator.new
    match a with
    | .answer a => some a
    | .found r => aksTests dbg n r

/-- `primality_test` with the modelled `aks_primality_test`, which factors numbers and calls `is_prime` for them: `depth` bounds the depth
of this recursion. Models rings/src/number/natural/primes.rs:476-521. -/
def primalityTest (dbg : Bool) : Nat → Nat → Option PrimalityTestResult
  | 0, _ => none
  | depth + 1, n => primalityTestWith (aks dbg fun m => (primalityTest dbg depth m).map fun
    | .zero => false
    | .one => false
    | .prime => true
    | .composite => false) n

/-- `is_prime`. Models rings/src/number/natural/primes.rs:523-530. -/
def libIsPrime (dbg : Bool) (depth n : Nat) : Option Bool :=
  (primalityTest dbg depth n).map fun
    | .zero => false
    | .one => false
    | .prime => true
    | .composite => false

end Verif.Natural
