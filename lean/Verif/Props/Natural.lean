import Verif.Proofs.PrimRoot
import Mathlib.Tactic.NormNum.Prime

/-!
# Property theorems for natural-number functions (C27–C37)

Specifications are Mathlib's `Nat.factorial`, `Nat.choose`, `Nat.gcd`, `Nat.Prime`, `Nat.totient`, `Nat.nth` and
the unit group `(ZMod n)ˣ`.
-/

namespace Verif.Props.Natural

open Verif.Natural Nat

/-! ## C27 -/

/-- C27: `factorial(n) = n!`. -/
theorem C27_factorial (n : Nat) : Verif.Natural.factorial n = n ! := factorial_eq n

/-- C27: both binomial functions return the binomial coefficient (0 when `b > a`); `choose_usize` never panics. -/
theorem C27_choose (a b : Nat) :
    Verif.Natural.choose a b = Nat.choose a b ∧ chooseUsize a b = some (Nat.choose a b) :=
  ⟨choose_eq a b, chooseUsize_eq a b⟩

/-- C27: `pow(x, n) = x^n`. -/
theorem C27_pow (x n : Nat) : Verif.Natural.pow x n = x ^ n := Verif.Natural.pow_eq x n

example : Nat.choose 5 2 = 10 ∧ 5 ! = 120 := by decide

/-! ## C28 -/

/-- C28: `nth_root_floor(x,n)` returns the largest `r` with `r^n ≤ x`; `n = 0` panics. -/
theorem C28_root_floor (x n : Nat) (hn : n ≠ 0) :
    ∃ r, nthRootFloor x n = some r ∧ IsGreatest {r : Nat | r ^ n ≤ x} r := by
  obtain ⟨r, h, h1, h2⟩ := nthRootFloor_spec x n hn
  refine ⟨r, h, h1, ?_⟩
  intro s hs
  by_contra hlt
  have : r + 1 ≤ s := by omega
  have := Nat.pow_le_pow_left this n
  have hs' : s ^ n ≤ x := hs
  omega

/-- C28: `nth_root_ceil(x,n)` returns the least `r` with `x ≤ r^n`. -/
theorem C28_root_ceil (x n : Nat) (hn : n ≠ 0) :
    ∃ r, nthRootCeil x n = some r ∧ IsLeast {r : Nat | x ≤ r ^ n} r := by
  obtain ⟨r, h, h1, h2⟩ := nthRootFloor_spec x n hn
  unfold nthRootCeil
  rw [h]
  refine ⟨_, rfl, ?_⟩
  simp only [Verif.Natural.pow_eq]
  split
  · refine ⟨h2.le, ?_⟩
    intro s hs
    by_contra hlt
    have : s ≤ r := by omega
    have := Nat.pow_le_pow_left this n
    have hs' : x ≤ s ^ n := hs
    omega
  · rename_i he
    simp only [ne_eq, not_not] at he
    refine ⟨he.ge, ?_⟩
    intro s hs
    have hs' : x ≤ s ^ n := hs
    rw [← he] at hs'
    exact (Nat.pow_le_pow_iff_left hn).1 hs'

/-- C28: the zeroth root panics. -/
theorem C28_root_zero (x : Nat) : nthRootFloor x 0 = none ∧ nthRootCeil x 0 = none := by
  simp [nthRootFloor, nthRootCeil]

example : (3 : Nat) ≠ 0 := by decide

/-! ## C29 -/

/-- C29: `gcd(x,y)` divides both and every common divisor divides it; `gcd(0,0) = 0`. -/
theorem C29_gcd (x y : Nat) :
    Verif.Natural.gcd x y ∣ x ∧ Verif.Natural.gcd x y ∣ y ∧ (∀ d, d ∣ x → d ∣ y → d ∣ Verif.Natural.gcd x y) ∧
      Verif.Natural.gcd 0 0 = 0 := by
  rw [gcd_eq, gcd_eq]
  exact ⟨Nat.gcd_dvd_left x y, Nat.gcd_dvd_right x y, fun d h1 h2 => Nat.dvd_gcd h1 h2, rfl⟩

/-! ## C30 -/

theorem not_pow_of_size (n k : Nat) (hn : 2 ≤ n) (hk : n.size + 1 < k) (a : Nat) : a ^ k ≠ n := by
  intro h
  have h1 : n < 2 ^ n.size := Nat.lt_size_self n
  have ha : 2 ≤ a := by
    by_contra hc
    have : a = 0 ∨ a = 1 := by omega
    rcases this with h0 | h0 <;> subst h0
    · rw [zero_pow (by omega)] at h; omega
    · rw [one_pow] at h; omega
  have h2 : 2 ^ k ≤ a ^ k := Nat.pow_le_pow_left ha k
  have h3 : 2 ^ n.size ≤ 2 ^ k := Nat.pow_le_pow_right (by omega) (by omega)
  omega

/-- C30: `is_power_test` always returns; `Power(a,k)` is a correct witness with prime exponent, `No` means that `n`
is not a perfect power at all, and 0/1 are reported as such. -/
theorem C30_is_power_test (n : Nat) :
    (n = 0 ∧ isPowerTest n = some .zero) ∨ (n = 1 ∧ isPowerTest n = some .one) ∨
    (∃ a k, isPowerTest n = some (.power a k) ∧ k.Prime ∧ a ^ k = n ∧ 2 ≤ n) ∨
    (isPowerTest n = some .no ∧ 2 ≤ n ∧ ∀ a k, 2 ≤ k → a ^ k ≠ n) := by
  unfold isPowerTest
  by_cases h0 : n = 0
  · simp [h0]
  by_cases h1 : n = 1
  · simp [h1]
  right; right
  rw [if_neg h0, if_neg h1]
  have hn : 2 ≤ n := by omega
  rcases isPowerLoop_spec n (bitcount n + 1) hn _ pgInv_new (by
    intro k hk hlt
    have := hk.two_le
    simp only [PrimeGenerator.new] at hlt
    omega) with ⟨a, k, h, hk, he⟩ | ⟨h, hall⟩
  · exact Or.inl ⟨a, k, h, hk, he, hn⟩
  · refine Or.inr ⟨h, hn, ?_⟩
    have hprime : ∀ a p, p.Prime → a ^ p ≠ n := by
      intro a p hp
      by_cases hle : p ≤ bitcount n + 1
      · exact hall p hp hle a
      · rw [bitcount_eq] at hle
        exact not_pow_of_size n p hn (by omega) a
    intro a k hk he
    have hp := Nat.minFac_prime (show k ≠ 1 by omega)
    obtain ⟨m, hm⟩ := Nat.minFac_dvd k
    apply hprime (a ^ m) k.minFac hp
    rw [← pow_mul, mul_comm, ← hm, he]

example : (2 : Nat) ^ 5 = 32 := by decide

/-! ## C31 -/

/-- C31: taking `k` items from a fresh generator terminates and yields the `k` smallest primes in increasing order. -/
theorem C31_prime_generator (k : Nat) :
    PrimeGenerator.new.take k = some ((List.range k).map (Nat.nth Nat.Prime)) := by
  have := pg_take k _ pgInv_new
  have h0 : Nat.count Nat.Prime PrimeGenerator.new.n = 0 := by
    have : PrimeGenerator.new.n = 2 := rfl
    rw [this]; decide
  rw [this, h0]
  simp

/-- C31: the same, in elementary terms: the output is strictly increasing, has `k` entries, all prime, and misses no
prime below its last entry. -/
theorem C31_prime_generator' (k : Nat) :
    ∃ l, PrimeGenerator.new.take k = some l ∧ l.length = k ∧ l.Pairwise (· < ·) ∧ (∀ p ∈ l, p.Prime) ∧
      ∀ p, p.Prime → (∃ q ∈ l, p ≤ q) → p ∈ l := by
  refine ⟨_, C31_prime_generator k, by simp, ?_, ?_, ?_⟩
  · rw [List.pairwise_map]
    exact (List.pairwise_lt_range).imp fun h => Nat.nth_strictMono Nat.infinite_setOfPred_prime h
  · intro p hp
    simp only [List.mem_map, List.mem_range] at hp
    obtain ⟨i, _, rfl⟩ := hp
    exact Nat.nth_mem_of_infinite Nat.infinite_setOfPred_prime i
  · rintro p hp ⟨q, hq, hle⟩
    simp only [List.mem_map, List.mem_range] at hq ⊢
    obtain ⟨i, hi, rfl⟩ := hq
    refine ⟨Nat.count Nat.Prime p, ?_, Nat.nth_count hp⟩
    have h1 : Nat.nth Nat.Prime (Nat.count Nat.Prime p) ≤ Nat.nth Nat.Prime i := by
      rw [Nat.nth_count hp]; exact hle
    have := (Nat.nth_strictMono Nat.infinite_setOfPred_prime).le_iff_le.1 h1
    omega

/-! ## C32 -/

/-- C32: trial division decides primality exactly. -/
theorem C32_try_divisors (n : Nat) :
    (tryDivisors n = .prime ↔ n.Prime) ∧ (tryDivisors n = .composite ↔ 2 ≤ n ∧ ¬ n.Prime) ∧
    (tryDivisors n = .zero ↔ n = 0) ∧ (tryDivisors n = .one ↔ n = 1) := by
  unfold tryDivisors
  by_cases h0 : n = 0
  · subst h0; simp [Nat.not_prime_zero]
  by_cases h1 : n = 1
  · subst h1; simp [Nat.not_prime_one]
  have hn : 2 ≤ n := by omega
  rw [if_neg h0, if_neg h1]
  rcases tryDivisorsLoop_spec n 2 (le_refl _) hn (by intro m h2 h3; omega) with ⟨h, hp⟩ | ⟨h, hp⟩ <;>
    simp [h, hp, h0, h1, hn]

/-! ## C33 -/

/-- `n` is a strong probable prime to base `a`, written out: for `n - 1 = 2^s d` with `d` odd, `a^d ≡ 1` or
`a^(2^i d) ≡ -1` for some `i < s`. -/
def StrongProbablePrime (n a : Nat) : Prop :=
  ∃ s d, n - 1 = 2 ^ s * d ∧ d % 2 = 1 ∧ (a ^ d % n = 1 ∨ ∃ i < s, a ^ (2 ^ i * d) % n = n - 1)

theorem two_pow_mul_odd_unique : ∀ (s t d e : Nat), d % 2 = 1 → e % 2 = 1 → 2 ^ s * d = 2 ^ t * e → s = t ∧ d = e
  | 0, 0, d, e, _, _, h => by simpa using h
  | 0, t + 1, d, e, hd, _, h => by
    rw [pow_zero, one_mul, pow_succ, mul_assoc, mul_comm, mul_assoc] at h; omega
  | s + 1, 0, d, e, _, he, h => by
    rw [pow_zero, one_mul, pow_succ, mul_assoc, mul_comm, mul_assoc] at h; omega
  | s + 1, t + 1, d, e, hd, he, h => by
    have h' : 2 ^ s * d = 2 ^ t * e := by
      have : 2 * (2 ^ s * d) = 2 * (2 ^ t * e) := by rw [pow_succ, pow_succ] at h; linarith
      omega
    have := two_pow_mul_odd_unique s t d e hd he h'
    omega

theorem spp_iff (n a : Nat) (hn : 3 ≤ n) (ha : a < n) :
    mrWitness n (splitTwos 0 (n - 1)).1 (splitTwos 0 (n - 1)).2 a = false ↔ StrongProbablePrime n a := by
  obtain ⟨h1, h2⟩ := splitTwos_spec 0 (n - 1) (by omega)
  rw [pow_zero, one_mul] at h1
  rw [mrWitness_false_iff n _ _ a hn ha]
  constructor
  · intro h
    exact ⟨_, _, h1.symm, h2, h⟩
  · rintro ⟨s, d, he, hd, h⟩
    obtain ⟨rfl, rfl⟩ := two_pow_mul_odd_unique _ _ _ _ h2 hd (h1.trans he)
    exact h

/-- C33, complete functional description: for odd `n ≥ 3` and bases below `n` the test answers `Composite` iff some base is
not a strong-probable-prime witness, and is inconclusive otherwise; small and even `n` are answered exactly. -/
theorem C33_miller_rabin_spec (n : Nat) (bases : List Nat) (hb : ∀ a ∈ bases, a < n) :
    (n = 0 → millerRabin n bases = some .zero) ∧ (n = 1 → millerRabin n bases = some .one) ∧
    (n = 2 → millerRabin n bases = some .prime) ∧ (4 ≤ n → n % 2 = 0 → millerRabin n bases = some .composite) ∧
    (3 ≤ n → n % 2 = 1 → (∀ a ∈ bases, StrongProbablePrime n a) → millerRabin n bases = none) ∧
    (3 ≤ n → n % 2 = 1 → (∃ a ∈ bases, ¬ StrongProbablePrime n a) → millerRabin n bases = some .composite) := by
  refine ⟨?_, ?_, ?_, ?_, ?_, ?_⟩
  · rintro rfl; rfl
  · rintro rfl; rfl
  · rintro rfl; rfl
  · intro h1 h2
    unfold millerRabin
    rw [if_neg (by omega), if_neg (by omega), if_neg (by omega), if_pos h2]
  · intro h1 h2 h
    unfold millerRabin
    rw [if_neg (by omega), if_neg (by omega), if_neg (by omega), if_neg (by omega)]
    simp only
    rw [if_neg]
    simp only [List.any_eq_true, not_exists, not_and, Bool.not_eq_true]
    intro a ha
    exact (spp_iff n a h1 (hb a ha)).2 (h a ha)
  · rintro h1 h2 ⟨a, ha, h⟩
    unfold millerRabin
    rw [if_neg (by omega), if_neg (by omega), if_neg (by omega), if_neg (by omega)]
    simp only
    rw [if_pos]
    rw [List.any_eq_true]
    refine ⟨a, ha, ?_⟩
    by_contra hc
    exact h ((spp_iff n a h1 (hb a ha)).1 (by simpa using hc))

/-- C33: never rejects a prime — for a prime `n` and bases in `[2, n-2]`, the answer is `Prime` (n = 2) or inconclusive. -/
theorem C33_prime_never_rejected (n : Nat) (hp : n.Prime) (bases : List Nat) (hb : ∀ a ∈ bases, 2 ≤ a ∧ a + 2 ≤ n) :
    millerRabin n bases = if n = 2 then some .prime else none := by
  have h2 := hp.two_le
  split
  · rename_i h; subst h; rfl
  · rename_i hne
    have hodd : n % 2 = 1 := hp.eq_two_or_odd.resolve_left hne
    unfold millerRabin
    rw [if_neg (by omega), if_neg (by omega), if_neg (by omega), if_neg (by omega)]
    simp only
    rw [if_neg]
    simp only [List.any_eq_true, not_exists, not_and, Bool.not_eq_true]
    intro a ha
    have := hb a ha
    exact prime_no_witness n a (by omega) hp (by omega) (by omega)

/-- C33: whatever the bases in `[2, n-2]`, a conclusive answer is right. -/
theorem C33_conclusive_sound (n : Nat) (bases : List Nat) (hb : ∀ a ∈ bases, 2 ≤ a ∧ a + 2 ≤ n) :
    (millerRabin n bases = some .composite → 2 ≤ n ∧ ¬ n.Prime) ∧
    (millerRabin n bases = some .prime → n.Prime) := by
  constructor
  · intro h
    refine ⟨?_, ?_⟩
    · by_contra hc
      have : n = 0 ∨ n = 1 := by omega
      rcases this with rfl | rfl <;> simp [millerRabin] at h
    · intro hp
      rw [C33_prime_never_rejected n hp bases hb] at h
      split at h <;> simp at h
  · intro h
    unfold millerRabin at h
    split at h; · simp at h
    split at h; · simp at h
    split at h
    · rename_i h2; rw [h2]; exact Nat.prime_two
    split at h; · simp at h
    simp only at h
    split at h <;> simp at h

example : Nat.Prime 13 ∧ ∀ a ∈ [2, 3, 5], 2 ≤ a ∧ a + 2 ≤ 13 := by decide
example : ¬ StrongProbablePrime 9 2 := by
  rintro ⟨s, d, h1, h2, h3⟩
  obtain ⟨rfl, rfl⟩ := two_pow_mul_odd_unique s 3 d 1 h2 rfl (by omega)
  rcases h3 with h | ⟨i, hi, h⟩
  · revert h; decide
  · interval_cases i <;> revert h <;> decide

/-! ## C34–C36 -/

/-- What it means for `f` (entries of the hash map) to be the prime factorization of `n`. -/
def IsFactorization (f : Factored) (n : Nat) : Prop :=
  (∀ pk ∈ f, pk.1.Prime ∧ 0 < pk.2) ∧ (f.map (·.1)).Nodup ∧ (f.map fun pk => pk.1 ^ pk.2).prod = n

/-- The assumption on `is_prime` used for factors `≥ 10^6` that are not settled by trial division. -/
def PrimalitySound (isPrime : Nat → Option Bool) : Prop :=
  ∀ m, 1000000 ≤ m → isPrime m = some true → m.Prime

/-- C34: `factor(0)` is `None`, and whenever `factor(n)` returns it returns the prime factorization of `n`. -/
theorem C34_factor (isPrime : Nat → Option Bool) (hP : PrimalitySound isPrime) (n : Nat) :
    factor isPrime 0 = some none ∧
    ∀ r, n ≠ 0 → factor isPrime n = some r → ∃ f, r = some f ∧ IsFactorization f n := by
  refine ⟨by simp [factor], ?_⟩
  intro r hn h
  obtain ⟨f, h1, ⟨h2, h3⟩, h4⟩ := factor_spec isPrime hP n hn r h
  exact ⟨f, h1, h2, h3, h4⟩

/-- C34: the reported exponents are the multiplicities: `find` returns `k` for `p` iff `p^k` exactly divides `n`, and
primes that are not keys do not divide `n`. -/
theorem C34_exponents (f : Factored) (n : Nat) (hf : IsFactorization f n) (p : Nat) :
    n.factorization p = ((f.find? (fun pk => pk.1 == p)).map (·.2)).getD 0 := by
  obtain ⟨h1, h2, h3⟩ := hf
  rw [← h3]
  exact good_factorization f ⟨h1, h2⟩ p

theorem isPrimeWith_prime (aks : Nat → Option PrimalityTestResult) (p : Nat) (hp : p.Prime) (h1 : 1000 < p)
    (h2 : p < mrBound) : isPrimeWith aks p = some true := by
  unfold isPrimeWith primalityTestWith
  rw [if_neg (by omega), if_neg, if_pos h2]
  · have : millerRabin p mrBases = none := by
      rw [C33_prime_never_rejected p hp mrBases, if_neg (by omega)]
      intro a ha
      have : 2 ≤ a ∧ a ≤ 41 := by
        revert a; decide
      omega
    rw [this]; rfl
  · rw [smallDivisorLoop_spec]
    rintro ⟨m, hm1, hm2, hm3⟩
    rcases (Nat.dvd_prime hp).1 hm3 with h | h <;> omega

/-- C34, unconditional totality: for every `1 ≤ n < 10001²` (about 10^8) `factor` with the library's own primality test
(whatever AKS does) terminates and returns the factorization. -/
theorem C34_factor_total_small (aks : Nat → Option PrimalityTestResult) (n : Nat) (hn : n ≠ 0) (hlt : n < 10001 * 10001) :
    ∃ f, factor (isPrimeWith aks) n = some (some f) ∧ IsFactorization f n := by
  obtain ⟨h1, h2, h3, h4, h5⟩ := trialLoop_spec 10000 2 n [] ⟨by simp, by simp⟩ hn (le_refl _) (by intro m a b; omega)
  set m := (trialLoop 10000 2 n []).1 with hm
  set g := (trialLoop 10000 2 n []).2 with hg
  have hmle : m ≤ n := Nat.le_of_dvd (by omega) h4
  have hmp : m = 1 ∨ m.Prime := by
    rcases h5 with h | h
    · exact h
    · by_cases h1' : m = 1
      · exact Or.inl h1'
      right
      by_contra hc
      have hsq := Nat.minFac_sq_le_self (Nat.pos_of_ne_zero h2) hc
      have hmin : ¬ m.minFac ≤ 10000 := fun hle =>
        h m.minFac (Nat.minFac_prime h1').two_le hle (Nat.minFac_dvd m)
      have : 10001 * 10001 ≤ m.minFac ^ 2 := by
        rw [pow_two]; exact Nat.mul_le_mul (by omega) (by omega)
      omega
  have hstart : Factorizer.newWithTrialDivision n 10000 = ⟨g, [m]⟩ := rfl
  simp only [List.map_nil, List.prod_nil, mul_one] at h3
  have hempty : ∀ g', factorMain (isPrimeWith aks) ⟨g', []⟩ = some g' := by
    intro g'
    rw [factorMain]; simp [Factorizer.nextToFactor]
  have hres : ∃ f, factorMain (isPrimeWith aks) ⟨g, [m]⟩ = some f ∧ IsFactorization f n := by
    rcases hmp with h | h
    · refine ⟨g, ?_, h1.1, h1.2, ?_⟩
      · rw [factorMain, h]
        simp [Factorizer.nextToFactor]
      · rw [← h3, h, one_mul]
    · have hm1 : m ≠ 1 := h.ne_one
      have hfound : (Factorizer.mk g [m]).foundPrimeFactor m = some ⟨mulPrime g m, []⟩ := by
        simp [Factorizer.foundPrimeFactor]
      have hgood := mulPrime_good g m h1 h
      refine ⟨mulPrime g m, ?_, hgood.1, hgood.2, ?_⟩
      · rw [factorMain]
        have hnext : (Factorizer.mk g [m]).nextToFactor = (some m, ⟨g, [m]⟩) := by
          simp [Factorizer.nextToFactor, hm1]
        rw [hnext]
        simp only
        by_cases hsmall : m < 1000000
        · rw [if_pos hsmall]
          obtain ⟨hp, hd⟩ := smallestFactorLoop_spec m 2 h.two_le (le_refl _) (by intro k a b; omega)
          have he : smallestFactorLoop m 2 = m := by
            rcases (Nat.dvd_prime h).1 hd with h' | h'
            · exact absurd h' hp.ne_one
            · exact h'
          rw [he, hfound]
          exact hempty _
        · rw [if_neg hsmall, isPrimeWith_prime aks m h (by omega) (by unfold mrBound; omega)]
          simp only [Option.bind_eq_bind, Option.bind_some, if_true]
          rw [hfound]
          exact hempty _
      · rw [mulPrime_prod, ← h3, mul_comm]
  obtain ⟨f, hf, hff⟩ := hres
  exact ⟨f, by unfold factor; rw [if_neg hn, hstart, hf]; rfl, hff⟩

/-- the hypothesis `PrimalitySound` is satisfiable (exact test), and a non-trivial number is factored. -/
example : PrimalitySound (fun m => some (decide m.Prime)) := by
  intro m _ h; simpa using h
example : ∃ f, factor (isPrimeWith fun _ => none) 99999999 = some (some f) ∧ IsFactorization f 99999999 :=
  C34_factor_total_small _ _ (by decide) (by decide)

/-- C34/C35: `expand` gives back the number. -/
theorem C35_expand (f : Factored) (n : Nat) (hf : IsFactorization f n) : expand f = n := by
  rw [expand_eq, hf.2.2]

/-- C35: `euler_totient` of the factorization of `n` is Euler's totient of `n`. -/
theorem C35_euler_totient (f : Factored) (n : Nat) (hf : IsFactorization f n) :
    eulerTotient f = ((Finset.range n).filter (fun a => n.Coprime a)).card := by
  rw [← Nat.totient_eq_card_coprime, good_totient f ⟨hf.1, hf.2.1⟩, hf.2.2]

example : IsFactorization [(2, 3), (5, 1)] 40 := by
  refine ⟨?_, by decide, by decide⟩
  intro pk h
  simp only [List.mem_cons, List.not_mem_nil, or_false] at h
  rcases h with rfl | rfl <;> norm_num

/-- C36: on the factorization of `n`, `is_primitive_root(x)` (when the factorization of φ(n) returns) answers `NonUnit` iff `x` is not
coprime to `n`, `Yes` iff it is and its class generates the whole unit group mod `n`, and `No` iff it is coprime but does not. -/
theorem C36_primitive_root (isPrime : Nat → Option Bool) (hP : PrimalitySound isPrime) (f : Factored) (n : Nat)
    (hf : IsFactorization f n) (x : Nat) (r : IsPrimitiveRootResult) (h : isPrimitiveRoot isPrime f x = some r) :
    (r = .nonUnit ↔ ¬ Nat.Coprime x n) ∧
    (r = .yes ↔ ∃ hc : Nat.Coprime x n, ∀ v : (ZMod n)ˣ, v ∈ Subgroup.zpowers (ZMod.unitOfCoprime x hc)) ∧
    (r = .no ↔ ∃ hc : Nat.Coprime x n, ¬ ∀ v : (ZMod n)ˣ, v ∈ Subgroup.zpowers (ZMod.unitOfCoprime x hc)) := by
  have hn : n ≠ 0 := by
    rw [← hf.2.2]
    apply List.prod_ne_zero
    intro h0
    rw [List.mem_map] at h0
    obtain ⟨pk, hpk, h0⟩ := h0
    exact pow_ne_zero _ (hf.1 pk hpk).1.ne_zero h0
  unfold isPrimitiveRoot at h
  rw [C35_expand f n hf] at h
  simp only [gcd_eq] at h
  by_cases hc : Nat.Coprime x n
  · rw [if_neg (by simpa using hc)] at h
    have htot : eulerTotient f = Nat.totient n := by rw [good_totient f ⟨hf.1, hf.2.1⟩, hf.2.2]
    rw [htot] at h
    simp only [Option.bind_eq_bind, Option.bind_eq_some_iff] at h
    obtain ⟨r1, hr1, pf, hpf, hres⟩ := h
    have hphi : Nat.totient n ≠ 0 := (Nat.totient_pos.2 (by omega)).ne'
    obtain ⟨pf', e1, hfac⟩ := (C34_factor isPrime hP _).2 r1 hphi hr1
    have : pf' = pf := by rw [e1] at hpf; simpa using hpf
    subst this
    have hps : ∀ p, p ∈ distinctPrimeFactors pf' ↔ p ∈ (Nat.totient n).primeFactors := by
      intro p
      rw [good_mem_primeFactors pf' ⟨hfac.1, hfac.2.1⟩, hfac.2.2]
    have key := primRoot_iff n x (by omega) hc _ hps
    split at hres
    · rename_i hany
      have hno : ¬ ∀ v : (ZMod n)ˣ, v ∈ Subgroup.zpowers (ZMod.unitOfCoprime x hc) := by
        rw [← key]; simp only [hany]; simp
      simp only [Option.some.injEq] at hres
      subst hres
      refine ⟨by simp [hc], ?_, ?_⟩
      · simp only [reduceCtorEq, false_iff, not_exists]; intro _ h'; exact hno h'
      · simp only [true_iff]; exact ⟨hc, hno⟩
    · rename_i hany
      have hyes : ∀ v : (ZMod n)ˣ, v ∈ Subgroup.zpowers (ZMod.unitOfCoprime x hc) := by
        rw [← key]; simpa using hany
      simp only [Option.some.injEq] at hres
      subst hres
      refine ⟨by simp [hc], ?_, ?_⟩
      · simp only [true_iff]; exact ⟨hc, hyes⟩
      · simp only [reduceCtorEq, false_iff, not_exists, not_not]; intro _ ; exact hyes
  · rw [if_pos (by simpa [Nat.Coprime] using hc)] at h
    simp only [Option.some.injEq] at h
    subst h
    simp [hc]

/-- C36: it does return for every `n < 10001²` with the library's primality test. -/
theorem C36_total_small (aks : Nat → Option PrimalityTestResult) (f : Factored) (n : Nat)
    (hf : IsFactorization f n) (hn : n ≠ 0) (hlt : n < 10001 * 10001) (x : Nat) :
    ∃ r, isPrimitiveRoot (isPrimeWith aks) f x = some r := by
  have htot : eulerTotient f = Nat.totient n := by rw [good_totient f ⟨hf.1, hf.2.1⟩, hf.2.2]
  obtain ⟨g, hg, _⟩ := C34_factor_total_small aks (Nat.totient n) (Nat.totient_pos.2 (by omega)).ne'
    (lt_of_le_of_lt (Nat.totient_le n) hlt)
  unfold isPrimitiveRoot
  simp only [htot, hg]
  split
  · exact ⟨_, rfl⟩
  · simp only [Option.bind_eq_bind, Option.bind_some]
    split <;> exact ⟨_, rfl⟩

example : ∃ r, isPrimitiveRoot (isPrimeWith fun _ => none) [(2, 3), (5, 1)] 7 = some r :=
  C36_total_small _ _ 40 (by
    refine ⟨?_, by decide, by decide⟩
    intro pk h
    simp only [List.mem_cons, List.not_mem_nil, or_false] at h
    rcases h with rfl | rfl <;> norm_num) (by decide) (by decide) 7

/-! ## C37 -/

/-- C37 (part): `primality_test` never calls a prime composite, zero or one below the AKS threshold, and every `Composite`
answer below the threshold is right. -/
theorem C37_composite_sound_partial (aks : Nat → Option PrimalityTestResult) (n : Nat) (hn : n < mrBound) :
    ∃ r, primalityTestWith aks n = some r ∧ (r = .composite → 2 ≤ n ∧ ¬ n.Prime) ∧ (n.Prime → r = .prime) ∧
      (r = .zero ↔ n = 0) ∧ (r = .one ↔ n = 1) := by
  unfold primalityTestWith
  by_cases h1 : n ≤ 1000
  · rw [if_pos h1]
    obtain ⟨a, b, c, d⟩ := C32_try_divisors n
    exact ⟨_, rfl, b.1, a.2, c, d⟩
  rw [if_neg h1]
  by_cases h2 : smallDivisorLoop n 2 = true
  · rw [if_pos h2]
    rw [smallDivisorLoop_spec] at h2
    obtain ⟨m, hm1, hm2, hm3⟩ := h2
    have hnp : ¬ n.Prime := by
      intro hp
      rcases (Nat.dvd_prime hp).1 hm3 with h | h <;> omega
    exact ⟨_, rfl, fun _ => ⟨by omega, hnp⟩, fun h => absurd h hnp, by simp; omega, by simp; omega⟩
  rw [if_neg h2, if_pos hn]
  have hbases : ∀ a ∈ mrBases, 2 ≤ a ∧ a + 2 ≤ n := by
    intro a ha
    have : 2 ≤ a ∧ a ≤ 41 := by
      revert a; decide
    omega
  have hs := C33_conclusive_sound n mrBases hbases
  rcases hmr : millerRabin n mrBases with _ | r
  · exact ⟨_, rfl, by simp, by simp, by simp; omega, by simp; omega⟩
  · refine ⟨r, rfl, ?_, ?_, ?_, ?_⟩
    · rintro rfl; exact hs.1 hmr
    · intro hp
      rw [C33_prime_never_rejected n hp mrBases hbases] at hmr
      split at hmr <;> simp at hmr
      exact hmr.symm
    · constructor
      · rintro rfl
        unfold millerRabin at hmr
        split at hmr; · assumption
        split at hmr; · simp at hmr
        split at hmr; · simp at hmr
        split at hmr; · simp at hmr
        simp only at hmr
        split at hmr <;> simp at hmr
      · intro h; omega
    · constructor
      · rintro rfl
        unfold millerRabin at hmr
        split at hmr; · simp at hmr
        split at hmr; · assumption
        split at hmr; · simp at hmr
        split at hmr; · simp at hmr
        simp only at hmr
        split at hmr <;> simp at hmr
      · intro h; omega

/-- The published fact (Sorenson–Webster) the code relies on: below `mrBound`, a strong probable prime to the first thirteen prime
bases is prime. It is a numerical search result and stays a hypothesis. -/
def ThirteenBasesSuffice : Prop :=
  ∀ n, 2 ≤ n → n < mrBound → n % 2 = 1 → (∀ a ∈ mrBases, a < n) → (∀ a ∈ mrBases, StrongProbablePrime n a) → n.Prime

/-- C37 (part): given that published fact, `Prime` answers below the threshold are right too, so the answer is exact. -/
theorem C37_primality_exact_partial (hSW : ThirteenBasesSuffice) (aks : Nat → Option PrimalityTestResult) (n : Nat)
    (hn : n < mrBound) : isPrimeWith aks n = some (decide n.Prime) := by
  obtain ⟨r, h1, h2, h3, h4, h5⟩ := C37_composite_sound_partial aks n hn
  have hprime : r = .prime → n.Prime := by
    rintro rfl
    unfold primalityTestWith at h1
    split at h1
    · simp only [Option.some.injEq] at h1
      exact (C32_try_divisors n).1.1 h1
    rename_i hbig
    split at h1
    · simp at h1
    rename_i hnd
    have hbases : ∀ a ∈ mrBases, a < n := by
      intro a ha
      have : a ≤ 41 := by revert a; decide
      omega
    have hspec := C33_miller_rabin_spec n mrBases hbases
    have hodd : n % 2 = 1 := by
      by_contra hc
      apply hnd
      rw [smallDivisorLoop_spec]
      exact ⟨2, le_refl _, by omega, by omega⟩
    by_cases hall : ∀ a ∈ mrBases, StrongProbablePrime n a
    · exact hSW n (by omega) hn hodd hbases hall
    · push Not at hall
      rw [hspec.2.2.2.2.2 (by omega) hodd hall] at h1
      simp at h1
  unfold isPrimeWith
  rw [h1]
  by_cases hp : n.Prime
  · rw [h3 hp]; simp [hp]
  · rcases r with _ | _ | _ | _ <;> simp [hp] at hprime ⊢

/-- C37 (part), unconditional below 10^6: trial division up to 999 already decides primality. -/
theorem C37_primality_small_partial (aks : Nat → Option PrimalityTestResult) (n : Nat) (hn : n < 1000000) :
    isPrimeWith aks n = some (decide n.Prime) := by
  obtain ⟨r, h1, h2, h3, h4, h5⟩ := C37_composite_sound_partial aks n (by unfold mrBound; omega)
  have hprime : r = .prime → n.Prime := by
    rintro rfl
    unfold primalityTestWith at h1
    split at h1
    · simp only [Option.some.injEq] at h1
      exact (C32_try_divisors n).1.1 h1
    rename_i hbig
    split at h1
    · simp at h1
    rename_i hnd
    by_contra hp
    apply hnd
    rw [smallDivisorLoop_spec]
    have hsq := Nat.minFac_sq_le_self (show 0 < n by omega) hp
    refine ⟨n.minFac, (Nat.minFac_prime (by omega)).two_le, ?_, Nat.minFac_dvd n⟩
    by_contra hge
    have : 1000 * 1000 ≤ n.minFac ^ 2 := by
      rw [pow_two]; exact Nat.mul_le_mul (by omega) (by omega)
    omega
  unfold isPrimeWith
  rw [h1]
  by_cases hp : n.Prime
  · rw [h3 hp]; simp [hp]
  · rcases r with _ | _ | _ | _ <;> simp [hp] at hprime ⊢

example : (561 : Nat) < 1000000 ∧ (1000003 : Nat) < mrBound := by decide

end Verif.Props.Natural
