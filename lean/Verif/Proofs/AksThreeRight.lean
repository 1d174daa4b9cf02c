import Verif.Proofs.AksThree

/-!
# The AKS primality test with `r = 3`: right answers
-/

namespace Verif.Aks

open Verif.Natural Verif.Props.Natural

theorem aksS_three {dbg : Bool} {n s : ℕ} (h : aksS dbg n 3 = some s) : s = 1 := by
  unfold aksS at h
  obtain ⟨M, hM, hM1⟩ := C28_root_ceil 0 2 (by omega)
  have hM0 : M = 0 := by
    have := hM1.2 (show 0 ≤ 0 ^ 2 by simp)
    omega
  subst hM0
  have hp : aksParams 3 = (2, 1, 0, 0) := rfl
  have hg : aksGrow (aksLhs 2 1 0 0) (Verif.Natural.pow n 0) 0 0 = some 1 := by
    rw [aksGrow, Verif.Natural.pow_eq]
    simp [aksLhs, choose_eq]
  simp only [hp, show 2 / 3 = 0 from rfl, hM, hg, Option.bind_eq_bind, Option.bind_some] at h
  split at h
  · simp at h
  · simpa using h.symm

theorem three_key {n e : ℕ} (hn : n = 2 * e + 1) (h3 : n % 3 = 2) {R : Type} [CommRing R] (w : R) (hw : w * w = -1 - w)
    (h : w ^ 3 = 1 → (w + (2 : ℕ)) ^ n = w ^ n + (2 : ℕ)) : (((-3) ^ e : ℤ) : R) * (w - 1) = 1 - w := by
  have hw3 : w ^ 3 = 1 := by linear_combination (w - 1) * hw
  have key := h hw3
  have e1 : (w + (2 : ℕ)) ^ n = (-3) ^ e * (w - 1) := by
    have : (w + (2 : ℕ)) ^ 2 = (-3) * w ^ 2 := by push_cast; linear_combination 4 * hw
    rw [hn, pow_succ, pow_mul, this, mul_pow, ← pow_mul, pow_mod hw3 (2 * e), show 2 * e % 3 = 1 by omega, pow_one]
    push_cast
    linear_combination (-3) ^ e * hw
  have e2 : w ^ n + (2 : ℕ) = 1 - w := by
    rw [pow_mod hw3 n, h3]
    push_cast
    linear_combination hw
  rw [e1, e2] at key
  push_cast
  exact key

theorem one_re {n : ℕ} {a b : ZMod n} : (1 : QuadraticAlgebra (ZMod n) a b).re = 1 := rfl

theorem one_im {n : ℕ} {a b : ZMod n} : (1 : QuadraticAlgebra (ZMod n) a b).im = 0 := rfl

theorem three_identity {n e : ℕ} (hn : n = 2 * e + 1) (h3 : n % 3 = 2) (h1 : 1 < n)
    (h : ∀ (R : Type) [CommRing R], (n : R) = 0 → ∀ x : R, x ^ 3 = 1 → (x + (2 : ℕ)) ^ n = x ^ n + (2 : ℕ)) :
    3 ^ e % n = if e % 2 = 0 then n - 1 else 1 := by
  have hn0 : (n : QuadraticAlgebra (ZMod n) (-1) (-1)) = 0 := by
    ext <;> simp
  have key := three_key hn h3 (QuadraticAlgebra.omega : QuadraticAlgebra (ZMod n) (-1) (-1)) (by ext <;> simp [one_re, one_im]) (h _ hn0 _)
  have him := congrArg QuadraticAlgebra.im key
  have him' : (-3 : ZMod n) ^ e = -1 := by
    rw [QuadraticAlgebra.im_mul] at him
    simp only [QuadraticAlgebra.re_intCast, QuadraticAlgebra.im_intCast] at him
    simpa [one_im] using him
  have hneg : (3 : ZMod n) ^ e = if e % 2 = 0 then -1 else 1 := by
    rw [show (-3 : ZMod n) = (-1) * 3 by ring, mul_pow] at him'
    split
    · rename_i he
      rw [Even.neg_one_pow (Nat.even_iff.2 he), one_mul] at him'
      exact him'
    · rename_i he
      rw [Odd.neg_one_pow (Nat.odd_iff.2 (by omega))] at him'
      linear_combination -him'
  split at hneg
  · rename_i he
    rw [if_pos he]
    have : ((3 ^ e : ℕ) : ZMod n) = ((n - 1 : ℕ) : ZMod n) := by
      rw [Nat.cast_sub h1.le]
      push_cast
      rw [hneg, ZMod.natCast_self, zero_sub]
    have := (ZMod.natCast_eq_natCast_iff' _ _ n).1 this
    rw [this, Nat.mod_eq_of_lt (by omega)]
  · rename_i he
    rw [if_neg he]
    have : ((3 ^ e : ℕ) : ZMod n) = ((1 : ℕ) : ZMod n) := by
      push_cast
      exact hneg
    have := (ZMod.natCast_eq_natCast_iff' _ _ n).1 this
    rw [this, Nat.mod_eq_of_lt h1]

/-- For `r = 3` and `n < 2^20` all answers are right. -/
theorem aksTests_three {dbg : Bool} {n : ℕ} {a : PrimalityTestResult} (hn : 2 ≤ n) (hlt : n < 2 ^ 20) (h3 : n % 3 = 2) (h : aksTests dbg n 3 = some a) : Right n a := by
  rcases aksTests_cases hn h with h' | ⟨s, hs, hs1, d1, d2, d3, d4, ok, h1, h2⟩
  · exact h'
  have := aksS_three hs
  subst this
  have hmem : 2 ∈ aksSet 1 := by decide
  cases ok with
  | false =>
    refine (aksTests_composite hn (by omega) (by omega) h).resolve_right ?_
    rw [h2]; simp
  | true =>
    refine Or.inl ⟨h2, ?_⟩
    have hodd : n % 2 = 1 := by
      have := (Nat.coprime_comm.1 (d1 2 hmem))
      rw [Nat.coprime_two_left, Nat.odd_iff] at this
      exact this
    refine prime_of_small hlt (by omega) (d4 2 hmem) (three_identity (e := (n - 1) / 2) (by omega) h3 (by omega) fun R _ h0 x hx => ?_)
    exact aksIdentity_true dbg (fits hn (by omega)) hn (by omega) (by omega) (by omega) (aksIdentities_true _ h1 2 hmem) R h0 x hx

end Verif.Aks
