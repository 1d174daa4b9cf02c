import Verif.Proofs.AksExample
import Verif.Proofs.AksThreeRight
import Mathlib.RingTheory.AdjoinRoot

/-!
# Property theorems for the AKS primality test (C37, C179–C182)
-/

namespace Verif.Props.Aks

open Verif.Natural Verif.Props.Natural Verif.Aks

/-- `a` is the right answer for the number `n`. -/
def RightAnswer (n : ℕ) (a : PrimalityTestResult) : Prop :=
  (a = .zero ↔ n = 0) ∧ (a = .one ↔ n = 1) ∧ (a = .prime ↔ n.Prime) ∧ (a = .composite ↔ 2 ≤ n ∧ ¬ n.Prime)

theorem rightAnswer_of {n : ℕ} {a : PrimalityTestResult} (hn : 2 ≤ n) (h : Right n a) : RightAnswer n a := by
  rcases h with ⟨rfl, h⟩ | ⟨rfl, h⟩
  · refine ⟨by simp; omega, by simp; omega, by simp [h], by simp [h]⟩
  · refine ⟨by simp; omega, by simp; omega, by simp [h], by simp [h, hn]⟩

/-! ## C179 -/

/-- C179: whatever the primality test for factors of `r - 1` answers, a composite answer is given only to composite numbers, the answers zero and one
only to 0 and 1, and those numbers get no other answer. -/
theorem C179_composite (dbg : Bool) (isPrime : ℕ → Option Bool) (n : ℕ) (a : PrimalityTestResult) (h : aks dbg isPrime n = some a) :
    (a = .composite → 2 ≤ n ∧ ¬ n.Prime) ∧ (n.Prime → a = .prime) ∧ (a = .zero ↔ n = 0) ∧ (a = .one ↔ n = 1) := by
  rcases aks_cases h with ⟨rfl, rfl⟩ | ⟨rfl, rfl⟩ | ⟨hn, h⟩
  · simp [Nat.not_prime_zero]
  · simp [Nat.not_prime_one]
  · have h' : Right n a ∨ a = .prime := by
      rcases h with h | ⟨-, r, hr, -, hc, -, ht⟩
      · exact Or.inl h
      · refine aksTests_composite hn hr.two_le (fun h0 => ?_) ht
        exact (Nat.Prime.coprime_iff_not_dvd hr).1 hc.symm (Nat.dvd_of_mod_eq_zero h0)
    rcases h' with h' | rfl
    · obtain ⟨h1, h2, h3, h4⟩ := rightAnswer_of hn h'
      exact ⟨h4.1, h3.2, h1, h2⟩
    · refine ⟨by simp, by simp, by simp; omega, by simp; omega⟩

/-! ## C180 -/

/-- C180: every answer of the AKS test is right, for every `n`, if the test used for the prime factors (above 10^6) of `r - 1` calls only primes prime. -/
theorem C180_exact (dbg : Bool) (isPrime : ℕ → Option Bool) (hP : PrimalitySound isPrime) (n : ℕ) (a : PrimalityTestResult)
    (h : aks dbg isPrime n = some a) : RightAnswer n a := by
  rcases aks_cases h with ⟨rfl, rfl⟩ | ⟨rfl, rfl⟩ | ⟨hn, h⟩
  · simp [RightAnswer, Nat.not_prime_zero]
  · simp [RightAnswer, Nat.not_prime_one]
  · refine rightAnswer_of hn ?_
    rcases h with h | ⟨hpow, r, hr, hr0, hc, hy, ht⟩
    · exact h
    have hgen := generates hP hr hy
    have h3 := aksR0_ge n
    rcases Nat.lt_or_ge r 5 with h5 | h5
    · have hr3 : r = 3 := by
        rcases (show r = 3 ∨ r = 4 by omega) with e | e
        · exact e
        · subst e; exact absurd hr (by decide)
      subst hr3
      have hlt : n < 2 ^ 20 := by
        by_contra hc
        have := aksR0_le n (not_lt.1 hc)
        omega
      refine aksTests_three hn hlt ?_ ht
      obtain ⟨k, hk⟩ := hgen 2 (by decide)
      have h0 : n % 3 ≠ 0 := fun h0 => (Nat.Prime.coprime_iff_not_dvd hr).1 hc.symm (Nat.dvd_of_mod_eq_zero h0)
      by_contra h2
      have h1 : n % 3 = 1 := by omega
      rw [Nat.pow_mod, h1, one_pow] at hk
      omega
    · exact aksTests_right hn h5 hr hgen hpow ht

/-- C180: the core of the test, with no assumption on other tests: if `r ≥ 5` is prime and `n ≥ 2` generates the units modulo `r` and is no perfect
power, then the tests for `n` and `r` answer prime exactly for primes and composite exactly for composite numbers. -/
theorem C180_tests (dbg : Bool) (n r : ℕ) (hn : 2 ≤ n) (hr : r.Prime) (hr5 : 5 ≤ r) (hgen : ∀ a, a % r ≠ 0 → ∃ k, n ^ k % r = a % r)
    (hpow : ∀ a k, 2 ≤ k → a ^ k ≠ n) (a : PrimalityTestResult) (h : aksTests dbg n r = some a) : RightAnswer n a :=
  rightAnswer_of hn (aksTests_right hn hr5 hr hgen hpow h)

theorem five_generates {n : ℕ} (h : n % 5 = 2) : ∀ a, a % 5 ≠ 0 → ∃ k, n ^ k % 5 = a % 5 := by
  intro a ha
  have hlt := Nat.mod_lt a (show 0 < 5 by omega)
  have h1 : n ^ 1 % 5 = 2 := by rw [pow_one, h]
  have h2 : n ^ 2 % 5 = 4 := by rw [Nat.pow_mod, h]
  have h3 : n ^ 3 % 5 = 3 := by rw [Nat.pow_mod, h]
  rcases (show a % 5 = 1 ∨ a % 5 = 2 ∨ a % 5 = 3 ∨ a % 5 = 4 by omega) with e | e | e | e
  · exact ⟨0, by rw [e, pow_zero]; norm_num⟩
  · exact ⟨1, by rw [e, h1]⟩
  · exact ⟨3, by rw [e, h3]⟩
  · exact ⟨2, by rw [e, h2]⟩

/-! ## C181 -/

/-- the polynomial with a list of coefficients, modulo `n` -/
noncomputable def polyOf (n : ℕ) (l : List ℕ) : Polynomial (ZMod n) :=
  ∑ i ∈ Finset.range l.length, Polynomial.C ((l.getD i 0 : ℕ) : ZMod n) * Polynomial.X ^ i

theorem mk_polyOf (n r : ℕ) (l : List ℕ) (hl : l.length = r) :
    AdjoinRoot.mk (Polynomial.X ^ r - 1 : Polynomial (ZMod n)) (polyOf n l) = ev (AdjoinRoot.root (Polynomial.X ^ r - 1 : Polynomial (ZMod n))) r fun i => l.getD i 0 := by
  unfold polyOf ev
  rw [map_sum, hl]
  refine Finset.sum_congr rfl fun i _ => ?_
  rw [map_mul, map_pow, AdjoinRoot.mk_X, Polynomial.C_eq_natCast, map_natCast]

theorem root_pow (n r : ℕ) : AdjoinRoot.root (Polynomial.X ^ r - 1 : Polynomial (ZMod n)) ^ r = 1 := by
  have h := AdjoinRoot.mk_self (f := (Polynomial.X ^ r - 1 : Polynomial (ZMod n)))
  rw [map_sub, map_pow, AdjoinRoot.mk_X, map_one, sub_eq_zero] at h
  exact h

theorem cast_zero (n r : ℕ) : ((n : ℕ) : AdjoinRoot (Polynomial.X ^ r - 1 : Polynomial (ZMod n))) = 0 := by
  rw [← map_natCast (AdjoinRoot.mk (Polynomial.X ^ r - 1 : Polynomial (ZMod n))), ← Polynomial.C_eq_natCast, ZMod.natCast_self, map_zero, map_zero]

theorem enc_list (cs r : ℕ) (l : List ℕ) (hl : l.length = r) : aksEncode cs l = enc cs (fun i => l.getD i 0) r := enc_set cs r l hl

theorem getD_lt {n : ℕ} {l : List ℕ} (h : ∀ x ∈ l, x < n) {r : ℕ} (hl : l.length = r) : ∀ i < r, l.getD i 0 < n := by
  intro i hi
  rw [List.getD_eq_getElem _ _ (by omega)]
  exact h _ (List.getElem_mem _)

/-- C181: for polynomials with `r` coefficients below `n`, the product of their packed integers, reduced as the code does it, is the packed
product modulo `x^r - 1` and `n`, with `r` coefficients below `n`; the debug assertion that compares it with the schoolbook product never fails. -/
theorem C181_mul (dbg : Bool) (n r : ℕ) (hn : 2 ≤ n) (hr : 2 ≤ r) (a b : List ℕ) (ha : a.length = r) (hb : b.length = r) (ha' : ∀ x ∈ a, x < n)
    (hb' : ∀ x ∈ b, x < n) :
    ∃ c : List ℕ, aksMul dbg n r (aksSize n r) (aksEncode (aksSize n r) a) (aksEncode (aksSize n r) b) = some (aksEncode (aksSize n r) c) ∧
      c.length = r ∧ (∀ x ∈ c, x < n) ∧ (Polynomial.X ^ r - 1 : Polynomial (ZMod n)) ∣ polyOf n c - polyOf n a * polyOf n b := by
  have hf := fits hn hr
  set f : ℕ → ℕ := fun k => conv r (fun i => a.getD i 0) (fun i => b.getD i 0) k % n with hfdef
  have hlen : ((List.range r).map f).length = r := by simp
  have hget : ∀ i < r, ((List.range r).map f).getD i 0 = f i := fun i hi => getD_map_range f hi
  refine ⟨(List.range r).map f, ?_, hlen, ?_, ?_⟩
  · rw [enc_list _ r a ha, enc_list _ r b hb, aksMul_eq dbg hf (getD_lt ha' ha) (getD_lt hb' hb), enc_list _ r _ hlen]
    exact congrArg some (enc_congr fun i hi => (hget i hi).symm)
  · intro x hx
    obtain ⟨i, -, rfl⟩ := List.mem_map.1 hx
    exact Nat.mod_lt _ (by omega)
  · rw [← AdjoinRoot.mk_eq_mk, map_mul, mk_polyOf n r _ hlen, mk_polyOf n r a ha, mk_polyOf n r b hb]
    rw [ev_congr (b := f) fun i hi => by rw [hget i hi], hfdef, ev_mod (cast_zero n r), ev_conv (root_pow n r)]

/-- C181: the power of a packed polynomial is the packed power modulo `x^r - 1` and `n`. -/
theorem C181_pow (dbg : Bool) (n r : ℕ) (hn : 2 ≤ n) (hr : 2 ≤ r) (a : List ℕ) (ha : a.length = r) (ha' : ∀ x ∈ a, x < n) (k : ℕ) :
    ∃ c : List ℕ, aksPow dbg n r (aksSize n r) (aksEncode (aksSize n r) a) k = some (aksEncode (aksSize n r) c) ∧ c.length = r ∧ (∀ x ∈ c, x < n) ∧
      (Polynomial.X ^ r - 1 : Polynomial (ZMod n)) ∣ polyOf n c - polyOf n a ^ k := by
  have hf := fits hn hr
  obtain ⟨f, h1, h2, h3⟩ := aksPow_eq hf hn (getD_lt ha' ha) k
  have hlen : ((List.range r).map f).length = r := by simp
  have hget : ∀ i < r, ((List.range r).map f).getD i 0 = f i := fun i hi => getD_map_range f hi
  refine ⟨(List.range r).map f, ?_, hlen, ?_, ?_⟩
  · rw [enc_list _ r a ha, h1 dbg, enc_list _ r _ hlen]
    exact congrArg some (enc_congr fun i hi => (hget i hi).symm)
  · intro x hx
    obtain ⟨i, hi, rfl⟩ := List.mem_map.1 hx
    exact h2 i (List.mem_range.1 hi)
  · rw [← AdjoinRoot.mk_eq_mk, map_pow, mk_polyOf n r _ hlen, mk_polyOf n r a ha]
    rw [ev_congr (b := f) fun i hi => by rw [hget i hi]]
    exact h3 _ _ (root_pow n r) (cast_zero n r)

/-- C181: packed polynomials are equal only if the polynomials are. -/
theorem C181_injective (n r : ℕ) (hn : 2 ≤ n) (hr : 2 ≤ r) (a b : List ℕ) (ha : a.length = r) (hb : b.length = r) (ha' : ∀ x ∈ a, x < n)
    (hb' : ∀ x ∈ b, x < n) : aksEncode (aksSize n r) a = aksEncode (aksSize n r) b ↔ a = b := by
  have hf := fits hn hr
  refine ⟨fun h => ?_, fun h => h ▸ rfl⟩
  rw [enc_list _ r a ha, enc_list _ r b hb, enc_inj (fun i hi => lt_of_lt_of_le (getD_lt ha' ha i hi) hf.n_le)
    fun i hi => lt_of_lt_of_le (getD_lt hb' hb i hi) hf.n_le] at h
  refine List.ext_getElem (by omega) fun i h1 h2 => ?_
  have := h i (by omega)
  rwa [List.getD_eq_getElem _ _ h1, List.getD_eq_getElem _ _ h2] at this

/-! ## C182 -/

/-- C182: once `r` is found (a prime from 3 up to `2^64`, not dividing `n ≥ 4`), release builds always return an answer; debug builds return the
same answer, unless the assertion about the number `s` of bases fails. -/
theorem C182_returns_partial (n r : ℕ) (hn : 4 ≤ n) (hr : r.Prime) (hr3 : 3 ≤ r) (hr64 : r < 2 ^ 64) (hnr : ¬ r ∣ n) :
    ∃ s a, aksS false n r = some s ∧ aksTests false n r = some a ∧ (aksS true n r = some s ∧ aksTests true n r = some a ∨ aksS true n r = none ∧ aksTests true n r = none) := by
  obtain ⟨s, a, h1, h2⟩ := aksTests_total hn hr3 (by rintro rfl; exact absurd hr (by decide)) hr64 fun h0 => hnr (Nat.dvd_of_mod_eq_zero h0)
  refine ⟨s, a, h1, h2 false h1, ?_⟩
  rcases aksS_debug n r with h | h
  · rw [h1] at h
    exact Or.inl ⟨h, h2 true h⟩
  · exact Or.inr ⟨h, by unfold aksTests; rw [h]; rfl⟩

/-- C182 fails in debug builds: the search for `s` does not always return the least value, because an equal value ends it one step early. The debug
assertion that `s` is least then panics, for example for 112; release builds answer composite. -/
theorem C182_debug_wrong (f : ℕ → Option PrimalityTestResult) :
    aks true (isPrimeWith f) 112 = none ∧ aks false (isPrimeWith f) 112 = some .composite := by
  have hpow : ∀ a k, 2 ≤ k → a ^ k ≠ 112 := not_power (p := 7) (by norm_num) (by norm_num) (by norm_num)
  have h := fun dbg => aks_five dbg f (n := 112) (by norm_num) (by norm_num) (by norm_num) hpow
  refine ⟨?_, ?_⟩
  · rw [h true]
    unfold aksTests
    rw [aksS_112.2]
    rfl
  · rw [h false]
    obtain ⟨s, a, -, ha, -⟩ := C182_returns_partial 112 5 (by norm_num) (by norm_num) (by norm_num) (by norm_num) (by norm_num)
    have hc := C179_composite false (isPrimeWith f) 112 a (by rw [h false]; exact ha)
    have hr := C180_tests false 112 5 (by norm_num) (by norm_num) (by norm_num) (fun a ha => five_generates (by norm_num) a ha) hpow a ha
    rw [ha, hr.2.2.2.2 ⟨by norm_num, by norm_num⟩]

/-- a run that reaches the tests and answers prime -/
theorem aks_seven (f : ℕ → Option PrimalityTestResult) : aks false (isPrimeWith f) 7 = some .prime := by
  have hpow : ∀ a k, 2 ≤ k → a ^ k ≠ 7 := not_power (p := 7) (by norm_num) (by norm_num) (by norm_num)
  rw [aks_five false f (n := 7) (by norm_num) (by norm_num) (by norm_num) hpow]
  obtain ⟨s, a, -, ha, -⟩ := C182_returns_partial 7 5 (by norm_num) (by norm_num) (by norm_num) (by norm_num) (by norm_num)
  have hr := C180_tests false 7 5 (by norm_num) (by norm_num) (by norm_num) (fun a ha => five_generates (by norm_num) a ha) hpow a ha
  rw [ha, hr.2.2.1.2 (by norm_num)]

example : PrimalitySound (fun m => some (decide m.Prime)) := fun m _ h => by simpa using h

example : ∃ c : List ℕ, aksMul true 7 5 (aksSize 7 5) (aksEncode (aksSize 7 5) [2, 1, 0, 0, 0]) (aksEncode (aksSize 7 5) [2, 1, 0, 0, 0])
    = some (aksEncode (aksSize 7 5) c) ∧ c.length = 5 := by
  obtain ⟨c, h1, h2, -⟩ := C181_mul true 7 5 (by norm_num) (by norm_num) [2, 1, 0, 0, 0] [2, 1, 0, 0, 0] rfl rfl (by decide) (by decide)
  exact ⟨c, h1, h2⟩

/-! ## C37 -/

theorem isPrime_of {p : ℕ → Option PrimalityTestResult} {n : ℕ} {b : Bool} (h : ((p n).map fun
    | .zero => false
    | .one => false
    | .prime => true
    | .composite => false) = some b) : ∃ a, p n = some a ∧ (b = true ↔ a = .prime) := by
  rw [Option.map_eq_some_iff] at h
  obtain ⟨a, h1, h2⟩ := h
  refine ⟨a, h1, ?_⟩
  subst h2
  cases a <;> simp

theorem below {f : ℕ → Option PrimalityTestResult} {n : ℕ} {a : PrimalityTestResult} (hn : n < mrBound) (h : primalityTestWith f n = some a) :
    (a = .composite → 2 ≤ n ∧ ¬ n.Prime) ∧ (n.Prime → a = .prime) ∧ (a = .zero ↔ n = 0) ∧ (a = .one ↔ n = 1) := by
  obtain ⟨r, h1, h2, h3, h4, h5⟩ := C37_composite_sound_partial f n hn
  rw [h1, Option.some.injEq] at h
  subst h
  exact ⟨h2, h3, h4, h5⟩

theorem below_exact {f : ℕ → Option PrimalityTestResult} {n : ℕ} (hSW : ThirteenBasesSuffice) (hn : n < mrBound)
    (h : primalityTestWith f n = some .prime) : n.Prime := by
  have := C37_primality_exact_partial hSW f n hn
  unfold isPrimeWith at this
  rw [h] at this
  simpa using this

/-- C37: `primality_test` calls no prime composite, for any `n` and whatever the depth of the recursion; the answers for 0 and 1 are right. -/
theorem C37_composite_sound (dbg : Bool) (depth n : ℕ) (a : PrimalityTestResult) (h : primalityTest dbg depth n = some a) :
    (a = .composite → 2 ≤ n ∧ ¬ n.Prime) ∧ (n.Prime → a = .prime) ∧ (a = .zero ↔ n = 0) ∧ (a = .one ↔ n = 1) := by
  cases depth with
  | zero => simp [primalityTest] at h
  | succ depth =>
    rw [primalityTest] at h
    rcases Nat.lt_or_ge n mrBound with hn | hn
    · exact below hn h
    · have hbig : 1000 < n := lt_of_lt_of_le (by unfold mrBound; norm_num) hn
      unfold primalityTestWith at h
      rw [if_neg (by omega)] at h
      split at h
      · rename_i hs
        rw [Option.some.injEq] at h
        subst h
        rw [smallDivisorLoop_spec] at hs
        obtain ⟨d, hd1, hd2, hd3⟩ := hs
        have hnp : ¬ n.Prime := fun hp => by
          rcases (Nat.dvd_prime hp).1 hd3 with e | e <;> omega
        refine ⟨fun _ => ⟨by omega, hnp⟩, fun hp => absurd hp hnp, by simp; omega, by simp; omega⟩
      · rw [if_neg (by omega)] at h
        exact C179_composite dbg _ n a h

/-- C37: given the published fact about the thirteen Miller–Rabin bases (used below 3317044064679887385961981), every answer of `primality_test` is
right, for every `n` and every depth of the recursion. -/
theorem C37_exact_partial (hSW : ThirteenBasesSuffice) (dbg : Bool) (depth : ℕ) : ∀ (n : ℕ) (a : PrimalityTestResult), primalityTest dbg depth n = some a → RightAnswer n a := by
  induction depth with
  | zero => intro n a h; simp [primalityTest] at h
  | succ depth ih =>
    intro n a h
    have hs := C37_composite_sound dbg (depth + 1) n a h
    rw [primalityTest] at h
    have hprime : a = .prime → n.Prime := by
      rintro rfl
      rcases Nat.lt_or_ge n mrBound with hn | hn
      · exact below_exact hSW hn h
      · have hbig : 1000 < n := lt_of_lt_of_le (by unfold mrBound; norm_num) hn
        unfold primalityTestWith at h
        rw [if_neg (by omega)] at h
        split at h
        · simp at h
        rw [if_neg (by omega)] at h
        refine (C180_exact dbg _ ?_ n _ h).2.2.1.1 rfl
        intro m _ hm
        obtain ⟨a, h1, h2⟩ := isPrime_of hm
        exact (ih m a h1).2.2.1.1 (h2.1 rfl)
    refine ⟨hs.2.2.1, hs.2.2.2, ⟨hprime, hs.2.1⟩, ⟨hs.1, ?_⟩⟩
    rintro ⟨h2, hp⟩
    cases a with
    | zero => have := hs.2.2.1.1 rfl; omega
    | one => have := hs.2.2.2.1 rfl; omega
    | prime => exact absurd (hprime rfl) hp
    | composite => rfl

/-- C37: `is_prime` on its own, in the same sense. -/
theorem C37_is_prime_partial (hSW : ThirteenBasesSuffice) (dbg : Bool) (depth n : ℕ) (b : Bool) (h : libIsPrime dbg depth n = some b) : b = decide n.Prime := by
  obtain ⟨a, h1, h2⟩ := isPrime_of h
  have := (C37_exact_partial hSW dbg depth n a h1).2.2.1
  rw [← h2] at this
  cases b <;> simp_all

/-- C37: no prime is called composite by `is_prime`, without the published fact. -/
theorem C37_is_prime_false (dbg : Bool) (depth n : ℕ) (h : libIsPrime dbg depth n = some false) : ¬ n.Prime := by
  obtain ⟨a, h1, h2⟩ := isPrime_of h
  intro hp
  have := (C37_composite_sound dbg depth n a h1).2.1 hp
  simp [this] at h2

/-- C34 and C36 for the primality test of the library: given the published fact, factorizations and primitive root answers are right. -/
theorem C34_factor_lib (hSW : ThirteenBasesSuffice) (dbg : Bool) (depth n : ℕ) (hn : n ≠ 0) (r : Option Factored) (h : factor (libIsPrime dbg depth) n = some r) :
    ∃ f, r = some f ∧ IsFactorization f n := by
  refine (C34_factor _ ?_ n).2 r hn h
  intro m _ hm
  have := C37_is_prime_partial hSW dbg depth m true hm
  simpa using this

example : primalityTest true 1 997 = some .prime ∧ primalityTest true 1 561 = some .composite := by decide +kernel

end Verif.Props.Aks
