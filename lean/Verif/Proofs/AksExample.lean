import Verif.Proofs.AksTotal

/-!
# Two runs of the AKS primality test
-/

namespace Verif.Aks

open Verif.Natural Verif.Props.Natural

theorem next_new : ∃ g2 g3 g5, PrimeGenerator.new.next = some (2, g2) ∧ g2.next = some (3, g3) ∧ g3.next = some (5, g5) := by
  obtain ⟨g2, a1, a2, a3⟩ := pg_next_spec 0 _ pgInv_new (by decide) (by intro m h1 h2; omega)
  have a3 : g2.n = 3 := a3
  obtain ⟨g3, b1, b2, b3⟩ := pg_next_spec 0 g2 a2 (by rw [a3]; decide) (by intro m h1 h2; omega)
  rw [a3] at b1 b3
  have b3 : g3.n = 4 := b3
  obtain ⟨g5, c1, c2, c3⟩ := pg_next_spec 1 g3 b2 (by rw [b3]; decide) (by
    intro m h1 h2
    have : m = 4 := by omega
    subst this
    decide)
  rw [b3] at c1
  exact ⟨g2, g3, g5, a1, b1, c1⟩

/-- the prime factors of a power of two found by `factor` -/
theorem factor_two_pow (f : ℕ → Option PrimalityTestResult) (k : ℕ) (hk : 1 ≤ k) (hk2 : 2 ^ k < 10001 * 10001) :
    ∃ g, factor (isPrimeWith f) (2 ^ k) = some (some g) ∧ distinctPrimeFactors g = [2] := by
  obtain ⟨g, h1, h2, h3, h4⟩ := C34_factor_total_small f (2 ^ k) (by positivity) hk2
  refine ⟨g, h1, ?_⟩
  have hall : ∀ p ∈ distinctPrimeFactors g, p = 2 := by
    intro p hp
    obtain ⟨pk, hpk, rfl⟩ := List.mem_map.1 hp
    obtain ⟨hpr, hpos⟩ := h2 pk hpk
    have hd : pk.1 ∣ 2 ^ k := by
      rw [← h4]
      exact (dvd_pow_self _ (by omega)).trans (List.dvd_prod (List.mem_map.2 ⟨pk, hpk, rfl⟩))
    exact (Nat.prime_dvd_prime_iff_eq hpr Nat.prime_two).1 (hpr.dvd_of_dvd_pow hd)
  have hnd : (distinctPrimeFactors g).Nodup := h3
  cases hg : distinctPrimeFactors g with
  | nil =>
    have : g = [] := by simpa [distinctPrimeFactors] using hg
    subst this
    simp only [List.map_nil, List.prod_nil] at h4
    have := Nat.one_lt_pow (show k ≠ 0 by omega) (show 1 < 2 by omega)
    omega
  | cons p t =>
    rw [hg] at hall hnd
    have e := hall p (by simp)
    subst e
    cases t with
    | nil => rfl
    | cons q t =>
      have := hall q (by simp)
      subst this
      simp at hnd

theorem findR_five (f : ℕ → Option PrimalityTestResult) (n : ℕ) (h3 : n % 3 = 1) (h5 : n % 5 = 2) :
    aksFindR (isPrimeWith f) n 3 PrimeGenerator.new = some (.found 5) := by
  obtain ⟨g2, g3, g5, e1, e2, e3⟩ := next_new
  have r3 : isPrimitiveRoot (isPrimeWith f) (fromPrime 3) n = some .no := by
    obtain ⟨g, h1, h2⟩ := factor_two_pow f 1 (by omega) (by norm_num)
    unfold isPrimitiveRoot
    have hphi : eulerTotient (fromPrime 3) = 2 ^ 1 := by simp [eulerTotient, fromPrime, Verif.Natural.pow_eq]
    have hg : Nat.gcd n 3 = 1 := by rw [Nat.gcd_comm, Nat.gcd_rec, h3]; decide
    simp only [expand_fromPrime, gcd_eq, hg, hphi, h1, h2, h3, ne_eq, not_true_eq_false, if_false, Option.bind_eq_bind, Option.bind_some]
    simp
  have r5 : isPrimitiveRoot (isPrimeWith f) (fromPrime 5) n = some .yes := by
    obtain ⟨g, h1, h2⟩ := factor_two_pow f 2 (by omega) (by norm_num)
    unfold isPrimitiveRoot
    have hphi : eulerTotient (fromPrime 5) = 2 ^ 2 := by simp [eulerTotient, fromPrime, Verif.Natural.pow_eq]
    have hg : Nat.gcd n 5 = 1 := by rw [Nat.gcd_comm, Nat.gcd_rec, h5]; decide
    simp only [expand_fromPrime, gcd_eq, hg, hphi, h1, h2, h5, ne_eq, not_true_eq_false, if_false, Option.bind_eq_bind, Option.bind_some]
    simp
  rw [aksFindR, e1]
  simp only [Option.bind_eq_bind, Option.bind_some]
  rw [if_pos (by omega), aksFindR, e2]
  simp only [Option.bind_eq_bind, Option.bind_some, r3]
  rw [if_neg (by omega), aksFindR, e3]
  simp only [Option.bind_eq_bind, Option.bind_some, r5]
  rw [if_neg (by omega)]

theorem isPowerTest_no {n : ℕ} (hn : 2 ≤ n) (h : ∀ a k, 2 ≤ k → a ^ k ≠ n) : isPowerTest n = some .no := by
  rcases C30_is_power_test n with ⟨e, -⟩ | ⟨e, -⟩ | ⟨a, k, -, hk, hak, -⟩ | ⟨e, -⟩
  · omega
  · omega
  · exact absurd hak (h a k hk.two_le)
  · exact e

theorem not_power {n p : ℕ} (hp : p.Prime) (h1 : p ∣ n) (h2 : ¬ p ^ 2 ∣ n) : ∀ a k, 2 ≤ k → a ^ k ≠ n := by
  rintro a k hk rfl
  exact h2 ((pow_dvd_pow_of_dvd (hp.dvd_of_dvd_pow h1) 2).trans (pow_dvd_pow a hk))

theorem aks_five (dbg : Bool) (f : ℕ → Option PrimalityTestResult) {n : ℕ} (h3 : n % 3 = 1) (h5 : n % 5 = 2) (hn : n < 2 ^ 16) (hpow : ∀ a k, 2 ≤ k → a ^ k ≠ n) :
    aks dbg (isPrimeWith f) n = aksTests dbg n 5 := by
  have hr0 : aksR0 n = 3 := by
    unfold aksR0
    rw [bitcount_eq]
    have h : n.size ≤ 16 := Nat.size_le.2 hn
    have h2 : (n.size - 1) * (n.size - 1) ≤ 15 * 15 := Nat.mul_le_mul (by omega) (by omega)
    simp only
    split <;> omega
  unfold aks
  rw [isPowerTest_no (by omega) hpow, hr0]
  simp only [Option.bind_eq_bind, Option.bind_some, findR_five f n h3 h5]

/-- for `n = 112` and `r = 5` the search for `s` ends with 5, although 4 is enough -/
theorem aksS_112 : aksS false 112 5 = some 5 ∧ aksS true 112 5 = none := by
  have hg : aksGrow (aksLhs 4 2 1 1) 112 0 0 = some 5 := by
    rw [aksGrow]
    simp only [aksLhs, choose_eq]
    rw [aksGrow]
    simp only [aksLhs, choose_eq]
    rw [aksGrow]
    simp [aksLhs, choose_eq, aksShrink]
  obtain ⟨M, hM, hM1⟩ := C28_root_ceil 1 2 (by omega)
  have hM0 : M = 1 := by
    have h1 := hM1.2 (show 1 ≤ 1 ^ 2 by simp)
    have h2 : 1 ≤ M ^ 2 := hM1.1
    rcases Nat.eq_zero_or_pos M with h | h
    · subst h; simp at h2
    · omega
  subst hM0
  have hp : aksParams 5 = (4, 2, 1, 1) := rfl
  have hpw : Verif.Natural.pow 112 1 = 112 := by rw [Verif.Natural.pow_eq, pow_one]
  unfold aksS
  simp only [hp, show 4 / 3 = 1 from rfl, hM, hpw, hg, Option.bind_eq_bind, Option.bind_some]
  refine ⟨by simp, ?_⟩
  have h4 : aksLhs 4 2 1 1 (5 - 1) = 112 := by simp [aksLhs, choose_eq]
  rw [h4]
  simp

end Verif.Aks
