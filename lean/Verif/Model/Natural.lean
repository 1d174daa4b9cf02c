import Verif.Model.Pow

/-!
# Natural number functions

Models rings/src/number/natural/functions.rs, primes.rs, factor.rs.
`Natural` (malachite, arbitrary precision) is modelled by `Nat`.
-/

namespace Verif.Natural

/-- `while i <= n { k *= i; i += 1 }` — functions.rs:8-13 -/
def factorialLoop (n k i : Nat) : Nat :=
  if i ≤ n then factorialLoop n (k * i) (i + 1) else k
termination_by n + 1 - i

/-- `factorial` — rings/src/number/natural/functions.rs:7-15 -/
def factorial (n : Nat) : Nat := factorialLoop n 1 1

/-- The inner loop `for i in 0..vals.len() - 1 { next_vals.push(vals[i] + vals[i+1]) }` — functions.rs:26-28 -/
def pascalSums : List Nat → List Nat
  | a :: b :: t => (a + b) :: pascalSums (b :: t)
  | _ => []

/-- One row step of Pascal's triangle — functions.rs:24-31 -/
def pascalNext (vals : List Nat) : List Nat := [1] ++ pascalSums vals ++ [1]

/-- `for _i in 0..a { vals = ... }` — functions.rs:23-32 -/
def pascalRow : Nat → List Nat
  | 0 => [1]
  | a + 1 => pascalNext (pascalRow a)

/-- `choose_usize`; the final `.nth(b).unwrap()` panics (`none`) if the row is too short.
rings/src/number/natural/functions.rs:17-35 -/
def chooseUsize (a b : Nat) : Option Nat :=
  if b > a then some 0 else (pascalRow a)[b]?

/-- `while m < a { m += 1; t *= m }` — functions.rs:43-46 -/
def chooseLoop (a t m : Nat) : Nat :=
  if m < a then chooseLoop a (t * (m + 1)) (m + 1) else t
termination_by a - m

/-- `choose` — rings/src/number/natural/functions.rs:37-54 -/
def choose (a b : Nat) : Nat :=
  if b > a then 0 else chooseLoop a 1 (a - b) / factorial b

/-- `pow` — rings/src/number/natural/functions.rs:56-79 -/
def pow (x n : Nat) : Nat := binPow (· * ·) 1 x n

/-- The bisection `while a + 1 < b { m = (a+b)/2; if m^n <= x { a = m } else { b = m } }` — functions.rs:92-99 -/
def rootLoop (x n a b : Nat) : Nat :=
  if a + 1 < b then
    let m := (a + b) / 2
    if pow m n ≤ x then rootLoop x n m b else rootLoop x n a m
  else a
termination_by b - a
decreasing_by all_goals omega

/-- `nth_root_floor`; `none` is the `panic!()` for `n = 0` — rings/src/number/natural/functions.rs:82-102 -/
def nthRootFloor (x n : Nat) : Option Nat :=
  if n = 0 then none
  else if n = 1 then some x
  else if x = 0 then some 0
  else some (rootLoop x n 1 x)

/-- `sqrt_floor` — functions.rs:105-107 -/
def sqrtFloor (x : Nat) : Option Nat := nthRootFloor x 2

/-- `nth_root_ceil` — rings/src/number/natural/functions.rs:110-116 -/
def nthRootCeil (x n : Nat) : Option Nat :=
  (nthRootFloor x n).map fun a => if pow a n ≠ x then a + 1 else a

/-- `sqrt_ceil` — functions.rs:119-121 -/
def sqrtCeil (x : Nat) : Option Nat := nthRootCeil x 2

/-- `bitcount` — rings/src/number/natural/functions.rs:124-127 -/
def bitcount (n : Nat) : Nat := n.bits.length

/-- `gcd`: `while y != 0 { (x, y) = (y, x mod y) }` — rings/src/number/natural/functions.rs:161-168 -/
def gcd (x y : Nat) : Nat :=
  if _h : y = 0 then x else gcd y (x % y)
termination_by y
decreasing_by exact Nat.mod_lt _ (Nat.pos_of_ne_zero _h)

/-! ## Prime generator -/

/-- State of the iterator `PrimeGenerator` — rings/src/number/natural/primes.rs:14-18 -/
structure PrimeGenerator where
  n : Nat
  primes : List Nat
deriving DecidableEq, Repr

/-- `PrimeGenerator::new` — primes.rs:21-26 -/
def PrimeGenerator.new : PrimeGenerator := ⟨2, []⟩

/-- `next`: the `'next_loop`. The loop has no syntactic bound, so it is modelled as a partial function
(`none` = diverges); the proofs show it returns. `any` stops at the first divisor like the `for` with `continue`.
rings/src/number/natural/primes.rs:32-47 -/
def PrimeGenerator.next (g : PrimeGenerator) : Option (Nat × PrimeGenerator) :=
  if g.primes.any (fun p => g.n % p = 0) then
    PrimeGenerator.next { g with n := g.n + 1 }
  else
    some (g.n, ⟨g.n + 1, g.primes ++ [g.n]⟩)
partial_fixpoint

/-- Taking `k` items from the iterator. -/
def PrimeGenerator.take : Nat → PrimeGenerator → Option (List Nat)
  | 0, _ => some []
  | k + 1, g => do
    let (p, g') ← g.next
    let rest ← PrimeGenerator.take k g'
    return p :: rest

/-- `IsPowerTestResult` — functions.rs:129-135 -/
inductive IsPowerTestResult where
  | zero | one | power (a k : Nat) | no
deriving DecidableEq, Repr

/-- The loop `for k in PrimeGenerator::new() { ... }` — functions.rs:147-156.
`none` = diverges or panics. -/
def isPowerLoop (n maxK : Nat) (g : PrimeGenerator) : Option IsPowerTestResult := do
  let (k, g') ← g.next
  if k > maxK then
    some .no
  else
    let a ← nthRootFloor n k
    if n = pow a k then some (.power a k) else isPowerLoop n maxK g'
partial_fixpoint

/-- `is_power_test` — rings/src/number/natural/functions.rs:137-159 -/
def isPowerTest (n : Nat) : Option IsPowerTestResult :=
  if n = 0 then some .zero
  else if n = 1 then some .one
  else isPowerLoop n (bitcount n + 1) PrimeGenerator.new

/-! ## Primality tests -/

/-- `PrimalityTestResult` — primes.rs:49-55 -/
inductive PrimalityTestResult where
  | zero | one | prime | composite
deriving DecidableEq, Repr

/-- `while d*d <= n { if n % d == 0 { return Composite } d += 1 }` — primes.rs:70-76 -/
def tryDivisorsLoop (n d : Nat) : PrimalityTestResult :=
  if _h : d * d ≤ n then
    if n % d = 0 then .composite else tryDivisorsLoop n (d + 1)
  else .prime
termination_by n + 1 - d
decreasing_by
  have : d ≤ d * d := Nat.le_mul_self d
  omega

/-- `try_divisors_primality_test` — rings/src/number/natural/primes.rs:64-79 -/
def tryDivisors (n : Nat) : PrimalityTestResult :=
  if n = 0 then .zero else if n = 1 then .one else tryDivisorsLoop n 2

/-- `loop { (q,r) = d.div_mod(2); if r == 0 { s += 1; d = q } else { break } }` — primes.rs:106-114.
Called with `d = n - 1 ≥ 1`; for `d = 0` the Rust loop diverges (the guard `d ≠ 0` makes the model total, it is
never reached because the code has already handled `n ≤ 2`). -/
def splitTwos (s d : Nat) : Nat × Nat :=
  if _h : d % 2 = 0 ∧ d ≠ 0 then splitTwos (s + 1) (d / 2) else (s, d)
termination_by d
decreasing_by omega

/-- The inner loop `for _ in 0..s { y = x*x; if y == 1 && x != 1 && x != n-1 { return Composite } x = y }`
— primes.rs:120-126; `none` = returned Composite, `some x` = final `x`. -/
def mrSquare (n : Nat) : Nat → Nat → Option Nat
  | 0, x => some x
  | s + 1, x =>
    let y := x * x % n
    if y = 1 ∧ x ≠ 1 ∧ x ≠ n - 1 then none else mrSquare n s y

/-- One base: `true` = this base proves compositeness — primes.rs:117-130.
`mod_n.nat_pow` is `SemiRingStructure::nat_pow` in `QuotientStructure`, whose `mul` is `rem(a*b, n)`
(structure/quotient.rs:116-118) and whose `one` is the integer 1. -/
def mrWitness (n s d a : Nat) : Bool :=
  match mrSquare n s (binPow (fun x y => x * y % n) 1 a d) with
  | none => true
  | some x => decide (x ≠ 1)

/-- `miller_rabin_primality_test`; `none` = `Err(ProbablePrime{..})` (the heuristic probability is dropped).
rings/src/number/natural/primes.rs:82-135 -/
def millerRabin (n : Nat) (bases : List Nat) : Option PrimalityTestResult :=
  if n = 0 then some .zero
  else if n = 1 then some .one
  else if n = 2 then some .prime
  else if n % 2 = 0 then some .composite
  else
    let sd := splitTwos 0 (n - 1)
    if bases.any (mrWitness n sd.1 sd.2) then some .composite else none

/-! ## Factorization -/

/-- `Factored`: the `HashMap<Natural, Natural>` is modelled by an association list in insertion order; every
function of the model that folds over it is shown to be invariant under permuting the list.
rings/src/number/natural/factor.rs:9-12 -/
abbrev Factored := List (Nat × Nat)

/-- `mul_prime`: `*entry(p).or_insert(0) += 1` — factor.rs:30-32 -/
def mulPrime : Factored → Nat → Factored
  | [], p => [(p, 1)]
  | (q, k) :: t, p => if q = p then (q, k + 1) :: t else (q, k) :: mulPrime t p

/-- `from_prime_unchecked` — factor.rs:34-36 -/
def fromPrime (p : Nat) : Factored := [(p, 1)]

/-- `expand` — rings/src/number/natural/factor.rs:46-52 -/
def expand (f : Factored) : Nat := f.foldl (fun t pk => t * pow pk.1 pk.2) 1

/-- `euler_totient` — rings/src/number/natural/factor.rs:54-60 -/
def eulerTotient (f : Factored) : Nat :=
  f.foldl (fun t pk => t * ((pk.1 - 1) * pow pk.1 (pk.2 - 1))) 1

/-- `distinct_prime_factors` — factor.rs:62-68 -/
def distinctPrimeFactors (f : Factored) : List Nat := f.map (·.1)

/-- `Factorizer` — factor.rs:100-103. `toFactor` is a stack whose top is the head (the Rust `Vec` has it last). -/
structure Factorizer where
  primeFactors : Factored
  toFactor : List Nat
deriving DecidableEq, Repr

/-- The inner loop `while n % d == 0 { mul_prime(d); n = n/d }` — factor.rs:117-120. The guard `2 ≤ d ∧ n ≠ 0`
only makes the model total: `d` starts at 2 and `n ≥ 1`. -/
def divideOut (d n : Nat) (f : Factored) : Nat × Factored :=
  if _h : n % d = 0 ∧ 2 ≤ d ∧ n ≠ 0 then divideOut d (n / d) (mulPrime f d) else (n, f)
termination_by n
decreasing_by exact Nat.div_lt_self (by omega) (by omega)

/-- The outer loop `while d*d <= n && d <= max_d { ...; d += 1 }` — factor.rs:116-122 -/
def trialLoop (maxD d n : Nat) (f : Factored) : Nat × Factored :=
  if d * d ≤ n ∧ d ≤ maxD then
    let r := divideOut d n f
    trialLoop maxD (d + 1) r.1 r.2
  else (n, f)
termination_by maxD + 1 - d

/-- `new_with_trial_division` — rings/src/number/natural/factor.rs:113-127 -/
def Factorizer.newWithTrialDivision (n maxD : Nat) : Factorizer :=
  let r := trialLoop maxD 2 n []
  ⟨r.2, [r.1]⟩

/-- `next_to_factor`: pops ones, peeks the top — factor.rs:129-144 -/
def Factorizer.nextToFactor (f : Factorizer) : Option Nat × Factorizer :=
  match f with
  | ⟨_, []⟩ => (none, f)
  | ⟨pf, n :: t⟩ => if n = 1 then Factorizer.nextToFactor ⟨pf, t⟩ else (some n, f)
termination_by f.toFactor.length

/-- `found_factor` — factor.rs:146-153 (`none` = the `unwrap` on an empty stack) -/
def Factorizer.foundFactor (f : Factorizer) (d : Nat) : Option Factorizer :=
  match f.toFactor with
  | [] => none
  | n :: t => some ⟨f.primeFactors, d :: (n / d) :: t⟩

/-- `found_prime_factor` — factor.rs:155-163 -/
def Factorizer.foundPrimeFactor (f : Factorizer) (p : Nat) : Option Factorizer :=
  match f.toFactor with
  | [] => none
  | n :: t => some ⟨mulPrime f.primeFactors p, if p ≠ n then (n / p) :: t else t⟩

/-- The trial division search `d = 2; while d*d <= n { if n % d == 0 {found d} d += 1 }; found n` — factor.rs:184-192:
the prime factor handed to `found_prime_factor`. -/
def smallestFactorLoop (n d : Nat) : Nat :=
  if _h : d * d ≤ n then
    if n % d = 0 then d else smallestFactorLoop n (d + 1)
  else n
termination_by n + 1 - d
decreasing_by
  have : d ≤ d * d := Nat.le_mul_self d
  omega

/-- `g1.evaluate(x)` for `g1 = x^2+1` and `g2 = g1∘g1` — factor.rs:198-206 (polynomial evaluation itself is
modelled elsewhere). -/
def rhoG1 (x : Nat) : Nat := x * x + 1
/-- see `rhoG1` -/
def rhoG2 (x : Nat) : Nat := rhoG1 (rhoG1 x)

/-- `|x - y|`, `Natural::abs_diff` -/
def absDiff (x y : Nat) : Nat := (x - y) + (y - x)

/-- The Pollard-rho inner loop — factor.rs:210-224: the first `d > 1` found. May diverge (`none`). -/
def rhoInner (n x y : Nat) : Option Nat :=
  let x' := rhoG1 x % n
  let y' := rhoG2 y % n
  let d := gcd (absDiff x' y') n
  if d > 1 then some d else rhoInner n x' y'
partial_fixpoint

/-- The Pollard-rho outer loop over starting points `2, 3, …` — factor.rs:208-226 -/
def rhoOuter (n start : Nat) : Option Nat := do
  let d ← rhoInner n start start
  if d = n then rhoOuter n (start + 1) else some d
partial_fixpoint

/-- The `'MAIN` loop of `factor` — factor.rs:176-230. `isPrime` is `primes::is_prime`. -/
def factorMain (isPrime : Nat → Option Bool) (f : Factorizer) : Option Factored :=
  match f.nextToFactor with
  | (none, f') => some f'.primeFactors
  | (some n, f') =>
    if n < 1000000 then do
      let f'' ← f'.foundPrimeFactor (smallestFactorLoop n 2)
      factorMain isPrime f''
    else do
      let b ← isPrime n
      if b then
        let f'' ← f'.foundPrimeFactor n
        factorMain isPrime f''
      else
        let d ← rhoOuter n 2
        let f'' ← f'.foundFactor d
        factorMain isPrime f''
partial_fixpoint

/-- `factor`: outer `none` = does not return, `some none` = `None` (for 0).
rings/src/number/natural/factor.rs:171-232 -/
def factor (isPrime : Nat → Option Bool) (n : Nat) : Option (Option Factored) :=
  if n = 0 then some none
  else (factorMain isPrime (Factorizer.newWithTrialDivision n 10000)).map some

/-- `IsPrimitiveRootResult` — factor.rs:71-76 -/
inductive IsPrimitiveRootResult where
  | nonUnit | no | yes
deriving DecidableEq, Repr

/-- `is_primitive_root`. `mod_pow` is malachite's modular power, trusted to be `x^e mod n`.
rings/src/number/natural/factor.rs:79-97 -/
def isPrimitiveRoot (isPrime : Nat → Option Bool) (f : Factored) (x : Nat) :
    Option IsPrimitiveRootResult :=
  let n := expand f
  if gcd x n ≠ 1 then some .nonUnit
  else do
    let phi := eulerTotient f
    let xm := x % n
    let r ← factor isPrime phi
    let pf ← r
    if (distinctPrimeFactors pf).any (fun p => xm ^ (phi / p) % n = 1) then some .no else some .yes

end Verif.Natural

namespace Verif.Natural

/-- `while d < 1000 { if n % d == 0 { return Composite } d += 1 }` — primes.rs:483-488; `true` = found a divisor -/
def smallDivisorLoop (n d : Nat) : Bool :=
  if d < 1000 then (if n % d = 0 then true else smallDivisorLoop n (d + 1)) else false
termination_by 1000 - d

/-- The thirteen Miller–Rabin bases — primes.rs:495-508 -/
def mrBases : List Nat := [2, 3, 5, 7, 11, 13, 17, 19, 23, 29, 31, 37, 41]

/-- The bound below which the thirteen bases are used — primes.rs:490 -/
def mrBound : Nat := 3317044064679887385961981

/-- `primality_test`, with the final `aks_primality_test` as a parameter.
rings/src/number/natural/primes.rs:476-521 -/
def primalityTestWith (aks : Nat → Option PrimalityTestResult) (n : Nat) : Option PrimalityTestResult :=
  if n ≤ 1000 then some (tryDivisors n)
  else if smallDivisorLoop n 2 then some .composite
  else if n < mrBound then
    match millerRabin n mrBases with
    | some answer => some answer
    | none => some .prime
  else aks n

/-- `is_prime` — rings/src/number/natural/primes.rs:523-530 -/
def isPrimeWith (aks : Nat → Option PrimalityTestResult) (n : Nat) : Option Bool :=
  (primalityTestWith aks n).map fun
    | .zero => false
    | .one => false
    | .prime => true
    | .composite => false

end Verif.Natural
