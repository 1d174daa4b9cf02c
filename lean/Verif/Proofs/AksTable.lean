import Mathlib.Data.Nat.Prime.Basic
import Mathlib.Tactic.Ring
import Mathlib.Tactic.IntervalCases

/-!
# The AKS primality test with `r = 3`: evaluation

For `r = 3` the test uses only the base 2. It checks `2^(n-1) = 1` and `(x + 2)^n = x^n + 2`, which means `(-3)^((n-1)/2) = -1`. This happens only for
`n < 2^20`, where the kernel checks that all composite numbers fail.
-/

namespace Verif.Aks

/-- the least common multiple of `1, …, 1023` -/
def lcm1023 : ℕ := 7580903090683445352377768759814214110641419250628571125412180319849149525388285691244840889412842190714657029445452550843511012372303400266265882476367291194600696876416243191521584529737974727209031624214028323361847170976495704318693338815602700415727504277071877397497063083700568576111189838246123735757845642851268417323402690997825103114677223106642151284641920090417465131869897386008931792841181410706392968052396422445537614139284160000

/-- the least common multiple of `1, …, 31` -/
def lcm31 : ℕ := 72201776446800

/-- `n` is prime or one of the two tests rejects it -/
def small (n : ℕ) : Bool :=
  Nat.blt n 32 || (Nat.blt n 1024 && Nat.beq (Nat.gcd n lcm31) 1) || Nat.beq (Nat.gcd n lcm1023) 1 || !(Nat.beq (2 ^ (n - 1) % n) 1) ||
    !(Nat.beq (3 ^ ((n - 1) / 2) % n) (if (n - 1) / 2 % 2 = 0 then n - 1 else 1))

/-- `small` for the numbers `6 u + 5` with `2^k t ≤ u < 2^k (t + 1)` -/
def smalls : ℕ → ℕ → Bool
  | 0, t => small (6 * t + 5)
  | k + 1, t => smalls k (2 * t) && smalls k (2 * t + 1)

theorem smalls_spec (k : ℕ) : ∀ t, smalls k t = true → ∀ u, 2 ^ k * t ≤ u → u < 2 ^ k * (t + 1) → small (6 * u + 5) = true := by
  induction k with
  | zero =>
    intro t h u h1 h2
    have : u = t := by omega
    subst this
    exact h
  | succ k ih =>
    intro t h u h1 h2
    rw [smalls, Bool.and_eq_true] at h
    have e1 : 2 ^ (k + 1) * t = 2 ^ k * (2 * t) := by ring
    have e2 : 2 ^ (k + 1) * (t + 1) = 2 ^ k * (2 * t + 1 + 1) := by ring
    rw [e1] at h1
    rw [e2] at h2
    rcases Nat.lt_or_ge u (2 ^ k * (2 * t + 1)) with h3 | h3
    · exact ih _ h.1 u h1 h3
    · exact ih _ h.2 u h3 h2

theorem smalls0 : smalls 14 0 = true := by decide +kernel
theorem smalls1 : smalls 14 1 = true := by decide +kernel
theorem smalls2 : smalls 14 2 = true := by decide +kernel
theorem smalls3 : smalls 14 3 = true := by decide +kernel
theorem smalls4 : smalls 14 4 = true := by decide +kernel
theorem smalls5 : smalls 14 5 = true := by decide +kernel
theorem smalls6 : smalls 14 6 = true := by decide +kernel
theorem smalls7 : smalls 14 7 = true := by decide +kernel
theorem smalls8 : smalls 14 8 = true := by decide +kernel
theorem smalls9 : smalls 14 9 = true := by decide +kernel
theorem smalls10 : smalls 14 10 = true := by decide +kernel

theorem small_true (n : ℕ) (hn : n < 2 ^ 20) (h : n % 6 = 5) : small n = true := by
  obtain ⟨u, rfl⟩ : ∃ u, n = 6 * u + 5 := ⟨n / 6, by omega⟩
  have h1 : u / 16384 < 11 := by omega
  have h2 : smalls 14 (u / 16384) = true := by
    generalize u / 16384 = t at h1
    interval_cases t
    · exact smalls0
    · exact smalls1
    · exact smalls2
    · exact smalls3
    · exact smalls4
    · exact smalls5
    · exact smalls6
    · exact smalls7
    · exact smalls8
    · exact smalls9
    · exact smalls10
  refine smalls_spec 14 _ h2 u ?_ ?_ <;> omega

theorem dvd_lcm1023 : ∀ p < 1024, p = 0 ∨ lcm1023 % p = 0 := by decide +kernel

theorem dvd_lcm31 : ∀ p < 32, p = 0 ∨ lcm31 % p = 0 := by decide +kernel

end Verif.Aks
