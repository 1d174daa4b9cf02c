import Verif.Proofs.Natural
import Mathlib.FieldTheory.Finite.Basic

namespace Verif.Natural

theorem splitTwos_spec (s d : Nat) (hd : d ≠ 0) :
    2 ^ (splitTwos s d).1 * (splitTwos s d).2 = 2 ^ s * d ∧ (splitTwos s d).2 % 2 = 1 := by
  fun_induction splitTwos s d with
  | case1 s d h ih =>
    have h2 : d / 2 ≠ 0 := by omega
    obtain ⟨h3, h4⟩ := ih h2
    refine ⟨?_, h4⟩
    rw [h3, pow_succ, mul_assoc]
    congr 1
    omega
  | case2 s d h =>
    refine ⟨rfl, ?_⟩
    simp only [ne_eq, not_and] at h
    simp
    by_contra hc
    exact h (by omega) hd

theorem modPow_cast (n a d : Nat) : 
    ((binPow (fun x y => x * y % n) 1 a d : Nat) : ZMod n) = (a : ZMod n) ^ d := by
  rw [binPow_map (fun x y => x * y % n) 1 a (· * ·) (1 : ZMod n) (fun x : Nat => (x : ZMod n)) (by simp)
    (by intro x y; simp)]
  exact binPow_eq_pow _ _

theorem modPow_lt (n a d : Nat) (hn : 1 < n) (ha : a < n) :
    binPow (fun x y => x * y % n) 1 a d < n :=
  binPow_mem _ _ _ (· < n) hn ha (fun _ _ _ _ => Nat.mod_lt _ (by omega)) d

theorem modPow_eq (n a d : Nat) (hn : 1 < n) (ha : a < n) :
    binPow (fun x y => x * y % n) 1 a d = a ^ d % n := by
  have h := modPow_cast n a d
  rw [← Nat.cast_pow, ZMod.natCast_eq_natCast_iff'] at h
  rwa [Nat.mod_eq_of_lt (modPow_lt n a d hn ha)] at h

theorem mrSquare_iff (n : Nat) (hn : 3 ≤ n) (s x : Nat) (hx : x < n) :
    mrSquare n s x = some 1 ↔ x = 1 ∨ ∃ i < s, x ^ 2 ^ i % n = n - 1 := by
  induction s generalizing x with
  | zero => simp [mrSquare]
  | succ s ih =>
    have hneg : (n - 1) * (n - 1) % n = 1 := by
      obtain ⟨k, rfl⟩ : ∃ k, n = k + 2 := ⟨n - 2, by omega⟩
      have : (k + 2 - 1) * (k + 2 - 1) = 1 + (k + 2) * k := by
        rw [show k + 2 - 1 = k + 1 by omega]; ring
      rw [this, Nat.add_mul_mod_self_left, Nat.mod_eq_of_lt (by omega)]
    simp only [mrSquare]
    have hpow : ∀ i, x ^ 2 ^ (i + 1) % n = (x * x % n) ^ 2 ^ i % n := by
      intro i
      rw [← Nat.pow_mod, ← pow_two, ← pow_mul, pow_succ, mul_comm]
    have hex : (∃ i < s + 1, x ^ 2 ^ i % n = n - 1) ↔
        (x = n - 1 ∨ ∃ i < s, (x * x % n) ^ 2 ^ i % n = n - 1) := by
      constructor
      · rintro ⟨i, hi, h⟩
        cases i with
        | zero => left; simpa [Nat.mod_eq_of_lt hx] using h
        | succ i => right; exact ⟨i, by omega, by rw [← hpow]; exact h⟩
      · rintro (h | ⟨i, hi, h⟩)
        · exact ⟨0, by omega, by simpa [Nat.mod_eq_of_lt hx] using h⟩
        · exact ⟨i + 1, by omega, by rw [hpow]; exact h⟩
    rw [hex]
    split
    · rename_i h
      obtain ⟨h1, h2, h3⟩ := h
      simp only [reduceCtorEq, false_iff, not_or, not_exists, not_and]
      refine ⟨h2, h3, ?_⟩
      intro i hi hc
      rw [h1] at hc
      simp only [one_pow] at hc
      rw [Nat.mod_eq_of_lt (by omega)] at hc
      omega
    · rename_i h
      rw [ih _ (Nat.mod_lt _ (by omega))]
      constructor
      · rintro (h1 | h1)
        · by_cases hx1 : x = 1
          · exact Or.inl hx1
          · by_cases hx2 : x = n - 1
            · exact Or.inr (Or.inl hx2)
            · exact absurd ⟨h1, hx1, hx2⟩ h
        · exact Or.inr (Or.inr h1)
      · rintro (h1 | h1 | h1)
        · left; subst h1; exact Nat.mod_eq_of_lt (by omega)
        · left; subst h1; exact hneg
        · exact Or.inr h1

theorem mrWitness_false_iff (n s d a : Nat) (hn : 3 ≤ n) (ha : a < n) :
    mrWitness n s d a = false ↔ a ^ d % n = 1 ∨ ∃ i < s, a ^ (2 ^ i * d) % n = n - 1 := by
  have h1 := mrSquare_iff n hn s _ (modPow_lt n a d (by omega) ha)
  rw [modPow_eq n a d (by omega) ha] at h1
  have h2 : ∀ i, (a ^ d % n) ^ 2 ^ i % n = a ^ (2 ^ i * d) % n := by
    intro i; rw [← Nat.pow_mod, ← pow_mul, mul_comm]
  simp only [h2] at h1
  rw [← h1]
  unfold mrWitness
  rw [modPow_eq n a d (by omega) ha]
  cases mrSquare n s (a ^ d % n) <;> simp

theorem prime_no_witness (n a : Nat) (hn : 3 ≤ n) (hp : n.Prime) (ha0 : 1 ≤ a) (ha : a < n) :
    mrWitness n (splitTwos 0 (n - 1)).1 (splitTwos 0 (n - 1)).2 a = false := by
  obtain ⟨hs, hodd⟩ := splitTwos_spec 0 (n - 1) (by omega)
  generalize (splitTwos 0 (n - 1)).1 = s at *
  generalize (splitTwos 0 (n - 1)).2 = d at *
  rw [mrWitness_false_iff n s d a hn ha]
  have := Fact.mk hp
  have hane : (a : ZMod n) ≠ 0 := by
    intro h
    rw [ZMod.natCast_eq_zero_iff] at h
    exact absurd (Nat.le_of_dvd (by omega) h) (by omega)
  have hferm : (a : ZMod n) ^ (2 ^ s * d) = 1 := by
    rw [hs, pow_zero, one_mul]; exact ZMod.pow_card_sub_one_eq_one hane
  -- descend
  have key : ∀ s, (a : ZMod n) ^ (2 ^ s * d) = 1 →
      (a : ZMod n) ^ d = 1 ∨ ∃ i < s, (a : ZMod n) ^ (2 ^ i * d) = -1 := by
    intro s
    induction s with
    | zero => intro h; left; simpa using h
    | succ s ih =>
      intro h
      have : ((a : ZMod n) ^ (2 ^ s * d)) ^ 2 = 1 := by
        rw [← pow_mul, ← h]; congr 1; ring
      rcases sq_eq_sq_iff_eq_or_eq_neg.1 (this.trans (one_pow 2).symm) with h1 | h1
      · rcases ih h1 with h2 | ⟨i, hi, h2⟩
        · exact Or.inl h2
        · exact Or.inr ⟨i, by omega, h2⟩
      · exact Or.inr ⟨s, by omega, h1⟩
  rcases key s hferm with h | ⟨i, hi, h⟩
  · left
    have h' : ((a ^ d : Nat) : ZMod n) = ((1 : Nat) : ZMod n) := by push_cast; exact h
    rw [ZMod.natCast_eq_natCast_iff'] at h'
    rw [h', Nat.mod_eq_of_lt (by omega)]
  · right
    refine ⟨i, hi, ?_⟩
    have h' : ((a ^ (2 ^ i * d) : Nat) : ZMod n) = ((n - 1 : Nat) : ZMod n) := by
      rw [Nat.cast_sub (by omega)]; push_cast; rw [h]; simp
    rw [ZMod.natCast_eq_natCast_iff'] at h'
    rw [h', Nat.mod_eq_of_lt (by omega)]

end Verif.Natural
