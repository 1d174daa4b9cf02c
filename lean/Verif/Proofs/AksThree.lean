import Verif.Proofs.AksMain
import Verif.Proofs.AksTable
import Mathlib.Algebra.QuadraticAlgebra.Basic

/-!
# The AKS primality test with `r = 3`
-/

namespace Verif.Aks

open Verif.Natural Verif.Props.Natural

theorem prime_of_gcd {n m Q : ℕ} (hn : 2 ≤ n) (hm : n < m * m) (hQ : ∀ p < m, p = 0 ∨ Q % p = 0) (h : Nat.gcd n Q = 1) : n.Prime := by
  by_contra hp
  have h1 := Nat.minFac_sq_le_self (by omega) hp
  have h2 := Nat.minFac_prime (show n ≠ 1 by omega)
  have h3 : n.minFac < m := by
    by_contra hc
    have := Nat.mul_le_mul (not_lt.1 hc) (not_lt.1 hc)
    rw [pow_two] at h1
    omega
  have h4 := Nat.dvd_gcd (Nat.minFac_dvd n) (Nat.dvd_of_mod_eq_zero ((hQ _ h3).resolve_left h2.ne_zero))
  rw [h, Nat.dvd_one] at h4
  exact h2.one_lt.ne' h4

theorem prime_of_small {n : ℕ} (hn : n < 2 ^ 20) (h5 : n % 6 = 5) (h2 : 2 ^ (n - 1) % n = 1)
    (h3 : 3 ^ ((n - 1) / 2) % n = if (n - 1) / 2 % 2 = 0 then n - 1 else 1) : n.Prime := by
  have h := small_true n hn h5
  unfold small at h
  rw [h2, h3] at h
  simp only [Bool.or_eq_true, Bool.and_eq_true, Nat.blt_eq, Nat.beq_eq, Bool.not_eq_true'] at h
  rcases h with (((h | h) | h) | h) | h
  · interval_cases n <;> first | omega | norm_num
  · exact prime_of_gcd (by omega) (by omega) dvd_lcm31 h.2
  · exact prime_of_gcd (by omega) (by omega) dvd_lcm1023 h
  · simp at h
  · simp at h

end Verif.Aks
