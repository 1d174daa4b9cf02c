import Verif.Model.Natural
import Verif.Proofs.Pow
import Mathlib.Data.Nat.Choose.Basic
import Mathlib.Data.Nat.Choose.Factorization
import Mathlib.Data.Nat.Prime.Infinite
import Mathlib.Data.Nat.Prime.Nth
import Mathlib.Data.Nat.Nth
import Mathlib.Data.Nat.Size
import Mathlib.Tactic.Linarith

namespace Verif.Natural

open Nat

theorem factorialLoop_eq (n k i : Nat) : factorialLoop n (k * (i)!) (i + 1) = if i ≤ n then k * n ! else k * (i)! := by
  by_cases h : i ≤ n
  · obtain ⟨d, rfl⟩ := Nat.exists_eq_add_of_le h
    clear h
    induction d generalizing i with
    | zero => rw [factorialLoop]; simp
    | succ d ih =>
      rw [factorialLoop]
      have h1 := ih (i + 1)
      rw [Nat.factorial_succ, Nat.mul_comm (i+1), ← Nat.mul_assoc] at h1
      have h2 : i + 1 + d = i + (d + 1) := by omega
      rw [h2] at h1
      simp only [show i + 1 ≤ i + (d + 1) by omega, show i ≤ i + (d+1) by omega, if_true] at h1 ⊢
      exact h1
  · rw [factorialLoop]; simp [h, show ¬ (i + 1 ≤ n) by omega]

theorem factorial_eq (n : Nat) : factorial n = n ! := by
  have := factorialLoop_eq n 1 0
  simpa [factorial] using this

theorem pascalSums_map (f : Nat → Nat) (k s : Nat) :
    pascalSums ((List.range' s (k + 1)).map f) = (List.range' s k).map (fun i => f i + f (i + 1)) := by
  induction k generalizing s with
  | zero => simp [pascalSums]
  | succ k ih =>
    rw [List.range'_succ, List.range'_succ] 
    simp only [List.map_cons, pascalSums]
    have := ih (s + 1)
    rw [List.range'_succ] at this
    simp only [List.map_cons] at this
    rw [this, List.range'_succ]
    simp

theorem pascalRow_eq (a : Nat) : pascalRow a = (List.range (a + 1)).map (Nat.choose a) := by
  induction a with
  | zero => simp [pascalRow]
  | succ a ih =>
    rw [pascalRow, pascalNext, ih, List.range_eq_range', pascalSums_map]
    rw [List.range_succ, List.range_succ_eq_map]
    simp only [List.map_append, List.map_cons, List.map_map, List.range_eq_range']
    simp
    intro x hx
    rw [Nat.choose_succ_succ]

theorem chooseUsize_eq (a b : Nat) : chooseUsize a b = some (a.choose b) := by
  unfold chooseUsize
  split
  · rename_i h; rw [Nat.choose_eq_zero_of_lt h]
  · rename_i h
    rw [pascalRow_eq]
    simp [show b < a + 1 by omega]

theorem chooseLoop_mul (a t m : Nat) (h : m ≤ a) : chooseLoop a t m * m ! = t * a ! := by
  obtain ⟨d, rfl⟩ := Nat.exists_eq_add_of_le h
  clear h
  induction d generalizing t m with
  | zero => rw [chooseLoop]; simp
  | succ d ih =>
    rw [chooseLoop]
    simp only [show m < m + (d + 1) by omega, if_true]
    have h1 := ih (t * (m + 1)) (m + 1)
    rw [show m + 1 + d = m + (d + 1) by omega, Nat.factorial_succ, ← Nat.mul_assoc] at h1
    have h2 : (chooseLoop (m + (d + 1)) (t * (m + 1)) (m + 1) * m !) * (m + 1) = (t * (m + (d+1))!) * (m + 1) := by
      nlinarith
    exact Nat.eq_of_mul_eq_mul_right (by omega) h2

theorem choose_eq (a b : Nat) : choose a b = a.choose b := by
  unfold choose
  split
  · rename_i h; rw [Nat.choose_eq_zero_of_lt h]
  · rename_i h
    have h1 := chooseLoop_mul a 1 (a - b) (by omega)
    have h2 := Nat.choose_mul_factorial_mul_factorial (show b ≤ a by omega)
    have h3 : chooseLoop a 1 (a - b) = a.choose b * b ! := by
      apply Nat.eq_of_mul_eq_mul_right (Nat.factorial_pos (a - b))
      rw [h1, h2, one_mul]
    rw [h3, factorial_eq, Nat.mul_div_cancel _ (Nat.factorial_pos b)]

theorem pow_eq (x n : Nat) : pow x n = x ^ n := binPow_eq_pow x n

theorem rootLoop_spec (x n a b : Nat) (ha : a ^ n ≤ x) (hb : x < b ^ n) :
    (rootLoop x n a b) ^ n ≤ x ∧ x < (rootLoop x n a b + 1) ^ n := by
  fun_induction rootLoop x n a b with
  | case1 a b h m hm ih => rw [pow_eq] at hm; exact ih hm hb
  | case2 a b h m hm ih => rw [pow_eq] at hm; exact ih ha (by omega)
  | case3 a b h =>
    refine ⟨ha, lt_of_lt_of_le hb (Nat.pow_le_pow_left (by omega) n)⟩

theorem nthRootFloor_spec (x n : Nat) (hn : n ≠ 0) :
    ∃ r, nthRootFloor x n = some r ∧ r ^ n ≤ x ∧ x < (r + 1) ^ n := by
  unfold nthRootFloor
  simp only [hn, if_false]
  split
  · rename_i h; subst h; exact ⟨x, rfl, by simp, by simp⟩
  split
  · rename_i h; subst h; exact ⟨0, rfl, by simp [hn], by simp⟩
  · rename_i h1 h2
    by_cases hx : x = 1
    · subst hx
      refine ⟨1, ?_, by simp, ?_⟩
      · rw [rootLoop]; simp
      · exact Nat.one_lt_two_pow hn
    · refine ⟨_, rfl, ?_⟩
      apply rootLoop_spec
      · simp; omega
      · calc x = x ^ 1 := by simp
          _ < x ^ n := Nat.pow_lt_pow_right (by omega) (by omega)

theorem gcd_eq (x y : Nat) : gcd x y = Nat.gcd x y := by
  fun_induction gcd x y with
  | case1 x => simp
  | case2 x y h ih => rw [ih, Nat.gcd_comm, Nat.gcd_comm x y, ← Nat.gcd_rec]

/-! ### prime generator -/

/-- reachable states: `primes` are exactly the primes below `n`, increasing -/
def PGInv (g : PrimeGenerator) : Prop :=
  2 ≤ g.n ∧ g.primes = (List.range g.n).filter (fun p => decide p.Prime)

theorem pgInv_new : PGInv PrimeGenerator.new := by
  refine ⟨le_refl _, ?_⟩
  decide

theorem any_dvd_iff {g : PrimeGenerator} (h : PGInv g) :
    (g.primes.any (fun p => decide (g.n % p = 0))) = true ↔ ¬ g.n.Prime := by
  rw [h.2]
  simp only [List.any_eq_true, List.mem_filter, List.mem_range, decide_eq_true_eq]
  constructor
  · rintro ⟨p, ⟨hp, hpp⟩, hd⟩ hprime
    rcases (Nat.dvd_prime hprime).1 (Nat.dvd_of_mod_eq_zero hd) with h1 | h1
    · exact hpp.one_lt.ne' h1
    · omega
  · intro hn
    refine ⟨g.n.minFac, ⟨?_, Nat.minFac_prime (by have := h.1; omega)⟩, ?_⟩
    · exact (Nat.not_prime_iff_minFac_lt h.1).1 hn
    · exact Nat.mod_eq_zero_of_dvd (Nat.minFac_dvd _)

theorem pg_next_spec (d : Nat) (g : PrimeGenerator) (h : PGInv g) (hp : (g.n + d).Prime)
    (hmin : ∀ m, g.n ≤ m → m < g.n + d → ¬ m.Prime) :
    ∃ g', g.next = some (g.n + d, g') ∧ PGInv g' ∧ g'.n = g.n + d + 1 := by
  induction d generalizing g with
  | zero =>
    rw [PrimeGenerator.next]
    rw [if_neg (by rw [any_dvd_iff h]; simpa using hp)]
    refine ⟨_, rfl, ⟨by simp; have := h.1; omega, ?_⟩, rfl⟩
    simp only [Nat.add_zero] at hp
    simp [List.range_succ, List.filter_append, h.2, hp]
  | succ d ih =>
    rw [PrimeGenerator.next]
    have hnp := hmin g.n (le_refl _) (by omega)
    rw [if_pos ((any_dvd_iff h).2 hnp)]
    have h' : PGInv ⟨g.n + 1, g.primes⟩ := by
      refine ⟨by simp; have := h.1; omega, ?_⟩
      simp [List.range_succ, List.filter_append, h.2, hnp]
    obtain ⟨g', h1, h2, h3⟩ := ih ⟨g.n + 1, g.primes⟩ h' (by
        show (g.n + 1 + d).Prime
        rw [show g.n + 1 + d = g.n + (d + 1) by omega]; exact hp)
      (fun m hm1 hm2 => hmin m (by simp at hm1; omega) (by simp at hm2; omega))
    refine ⟨g', ?_, h2, ?_⟩
    · simp at h1 
      rw [h1]; congr 2; omega
    · rw [h3]; simp; omega

theorem pg_next {g : PrimeGenerator} (h : PGInv g) :
    ∃ p g', g.next = some (p, g') ∧ PGInv g' ∧ g'.n = p + 1 ∧ p.Prime ∧ g.n ≤ p ∧
      ∀ m, g.n ≤ m → m < p → ¬ m.Prime := by
  have hex := Nat.exists_infinite_primes g.n
  obtain ⟨hle, hpr⟩ := Nat.find_spec hex
  have hmin : ∀ m, g.n ≤ m → m < Nat.find hex → ¬ m.Prime := fun m h1 h2 h3 => Nat.find_min hex h2 ⟨h1, h3⟩
  obtain ⟨d, hd⟩ := Nat.exists_eq_add_of_le hle
  rw [hd] at hpr hmin
  obtain ⟨g', h1, h2, h3⟩ := pg_next_spec d g h hpr hmin
  exact ⟨_, g', h1, h2, h3, hpr, by omega, hmin⟩

/-- Iterating from a state with `c` primes already produced yields `nth Prime c, nth Prime (c+1), …` -/
theorem pg_take (k : Nat) (g : PrimeGenerator) (h : PGInv g) :
    g.take k = some ((List.range k).map fun i => Nat.nth Nat.Prime (Nat.count Nat.Prime g.n + i)) := by
  induction k generalizing g with
  | zero => simp [PrimeGenerator.take]
  | succ k ih =>
    obtain ⟨p, g', h1, h2, h3, h4, h5, h6⟩ := pg_next h
    have hcount : Nat.count Nat.Prime p = Nat.count Nat.Prime g.n := by
      obtain ⟨d, rfl⟩ := Nat.exists_eq_add_of_le h5
      rw [Nat.count_add]
      have : Nat.count (fun k => Nat.Prime (g.n + k)) d = 0 := by
        rw [Nat.count_eq_card_filter_range, Finset.card_eq_zero, Finset.filter_eq_empty_iff]
        intro x hx
        exact h6 _ (by omega) (by simp at hx; omega)
      omega
    have hp : p = Nat.nth Nat.Prime (Nat.count Nat.Prime g.n) := by
      rw [← hcount, Nat.nth_count h4]
    have hc' : Nat.count Nat.Prime g'.n = Nat.count Nat.Prime g.n + 1 := by
      rw [h3, Nat.count_succ]; simp [h4, hcount]
    simp only [PrimeGenerator.take, h1, Option.bind_eq_bind, Option.bind_some]
    rw [ih g' h2]
    simp only [Option.bind_some, List.range_succ_eq_map, List.map_cons, List.map_map]
    rw [hc']
    simp only [Nat.add_zero, Option.pure_def, Option.some.injEq, List.cons.injEq]
    refine ⟨hp, ?_⟩
    apply List.map_congr_left
    intro a _
    simp only [Function.comp]
    congr 1
    omega

/-! ### perfect powers -/

theorem isPowerLoop_spec (n maxK : Nat) (hn : 2 ≤ n) (g : PrimeGenerator) (h : PGInv g)
    (hprev : ∀ k, k.Prime → k < g.n → ∀ a, a ^ k ≠ n) :
    (∃ a k, isPowerLoop n maxK g = some (.power a k) ∧ k.Prime ∧ a ^ k = n) ∨
    (isPowerLoop n maxK g = some .no ∧ ∀ k, k.Prime → k ≤ maxK → ∀ a, a ^ k ≠ n) := by
  obtain ⟨d, hd⟩ : ∃ d, d = maxK + 1 - g.n := ⟨_, rfl⟩
  induction d using Nat.strong_induction_on generalizing g with
  | _ d ih =>
  obtain ⟨p, g', h1, h2, h3, h4, h5, h6⟩ := pg_next h
  rw [isPowerLoop, h1]
  simp only [Option.bind_eq_bind, Option.bind_some]
  by_cases hk : p > maxK
  · right
    simp only [hk, if_true, true_and]
    intro k hkp hkm
    by_cases hkn : k < g.n
    · exact hprev k hkp hkn
    · exact absurd hkp (h6 k (by omega) (by omega))
  · simp only [hk, if_false]
    obtain ⟨r, hr, hr1, hr2⟩ := nthRootFloor_spec n p h4.ne_zero
    rw [hr]
    simp only [Option.bind_some, pow_eq]
    by_cases he : n = r ^ p
    · left
      exact ⟨r, p, by simp [← he], h4, he.symm⟩
    · simp only [he, if_false]
      apply ih (maxK + 1 - g'.n) (by omega) g' h2 _ rfl
      intro k hkp hkn a
      by_cases hkn' : k < g.n
      · exact hprev k hkp hkn' a
      · by_cases hkp' : k = p
        · subst hkp'
          intro hc
          subst hc
          have h7 : r ≤ a := by
            by_contra hlt
            have := Nat.pow_lt_pow_left (show a < r by omega) h4.ne_zero
            omega
          have h8 : a < r + 1 := by
            by_contra hlt
            have := Nat.pow_le_pow_left (show r + 1 ≤ a by omega) k
            omega
          exact he (by rw [show a = r by omega])
        · exact absurd hkp (h6 k (by omega) (by omega))

theorem bitcount_eq (n : Nat) : bitcount n = n.size := by
  unfold bitcount
  exact Nat.size_eq_bits_len n

/-! ### trial division -/

theorem tryDivisorsLoop_spec (n d : Nat) (hd : 2 ≤ d) (hn : 2 ≤ n) (h : ∀ m, 2 ≤ m → m < d → ¬ m ∣ n) :
    (tryDivisorsLoop n d = .prime ∧ n.Prime) ∨ (tryDivisorsLoop n d = .composite ∧ ¬ n.Prime) := by
  fun_induction tryDivisorsLoop n d with
  | case1 d hle hm =>
    right
    refine ⟨rfl, ?_⟩
    intro hp
    rcases (Nat.dvd_prime hp).1 (Nat.dvd_of_mod_eq_zero hm) with h1 | h1
    · omega
    · subst h1; nlinarith
  | case2 d hle hm ih =>
    apply ih (by omega)
    intro m hm1 hm2
    by_cases hmd : m = d
    · subst hmd; exact fun hc => hm (Nat.mod_eq_zero_of_dvd hc)
    · exact h m hm1 (by omega)
  | case3 d hle =>
    left
    refine ⟨rfl, ?_⟩
    by_contra hc
    have h1 := Nat.minFac_sq_le_self (by omega) hc
    have h2 : n.minFac < d := by
      by_contra h3
      have := Nat.mul_le_mul (show d ≤ n.minFac by omega) (show d ≤ n.minFac by omega)
      rw [pow_two] at h1
      omega
    exact h _ (Nat.minFac_prime (by omega)).two_le h2 (Nat.minFac_dvd n)

end Verif.Natural
