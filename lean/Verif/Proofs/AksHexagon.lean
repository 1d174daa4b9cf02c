import Verif.Proofs.AksLattice
import Mathlib.Algebra.BigOperators.Intervals
import Mathlib.Combinatorics.Pigeonhole

/-!
# Small relations when the group has `3 M² + 1` elements

Minkowski's theorem gives a relation of size `M (x + y)` in groups with at most `3 M²` elements. The relations have integer exponents, which leaves
room for one more element.
-/

namespace Verif.Aks

open Finset

variable {G : Type*} [CommGroup G] [Fintype G]

theorem gauss (c m : ℕ) : 2 * ∑ j ∈ range m, (c + j) = 2 * c * m + m * (m - 1) := by
  rw [sum_add_distrib, sum_const, card_range, smul_eq_mul, mul_add, mul_comm 2 (∑ j ∈ range m, j), sum_range_id_mul_two]
  ring

/-- two points of a large set give a relation -/
theorem pigeon (P Q : G) (T : Finset (Σ _ : ℕ, ℕ)) (hT : Fintype.card G < #T) {x y t : ℝ}
    (h : ∀ s ∈ T, ∀ s' ∈ T, ((s.2 : ℝ) - s'.2) * x ≤ t ∧ ((s.1 : ℝ) - s'.1) * y ≤ t ∧ ((s.2 : ℝ) - s'.2) * x + ((s.1 : ℝ) - s'.1) * y ≤ t) :
    ∃ a b : ℤ, P ^ a * Q ^ b = 1 ∧ ¬ (a = 0 ∧ b = 0) ∧ hex (a * x) (b * y) ≤ t := by
  obtain ⟨s, hs, s', hs', hne, e⟩ := exists_ne_map_eq_of_card_lt_of_maps_to (t := (univ : Finset G)) (by rwa [card_univ])
    (f := fun s : Σ _ : ℕ, ℕ => P ^ s.2 * Q ^ s.1) (fun _ _ => mem_univ _)
  refine ⟨(s.2 : ℤ) - s'.2, (s.1 : ℤ) - s'.1, ?_, ?_, ?_⟩
  · have e' : P ^ s.2 * Q ^ s.1 = P ^ s'.2 * Q ^ s'.1 := e
    rw [zpow_sub, zpow_sub, zpow_natCast, zpow_natCast, zpow_natCast, zpow_natCast, mul_mul_mul_comm, e', ← mul_inv, mul_inv_cancel]
  · rintro ⟨e1, e2⟩
    apply hne
    have h1 : s.1 = s'.1 := by omega
    have h2 : s.2 = s'.2 := by omega
    obtain ⟨u, v⟩ := s
    obtain ⟨u', v'⟩ := s'
    simp only at h1 h2
    rw [h1, h2]
  · obtain ⟨p1, p2, p3⟩ := h s hs s' hs'
    obtain ⟨q1, q2, q3⟩ := h s' hs' s hs
    rw [hex_le]
    push_cast
    refine ⟨abs_le.2 ⟨?_, ?_⟩, abs_le.2 ⟨?_, ?_⟩, abs_le.2 ⟨?_, ?_⟩⟩ <;> linarith

/-- points whose coordinates lie in intervals give differences in the hexagon -/
theorem pigeon' (P Q : G) (T : Finset (Σ _ : ℕ, ℕ)) (hT : Fintype.card G < #T) {x y t w0 : ℝ} {A B : ℕ} (hx : 0 < x) (hy : 0 < y) (hA : A * x ≤ t) (hB : B * y ≤ t)
    (h : ∀ b a, (⟨b, a⟩ : Σ _ : ℕ, ℕ) ∈ T → a ≤ A ∧ b ≤ B ∧ w0 ≤ a * x + b * y ∧ a * x + b * y ≤ w0 + t) :
    ∃ a b : ℤ, P ^ a * Q ^ b = 1 ∧ ¬ (a = 0 ∧ b = 0) ∧ hex (a * x) (b * y) ≤ t := by
  refine pigeon P Q T hT ?_
  rintro ⟨b, a⟩ hs ⟨b', a'⟩ hs'
  obtain ⟨h1, h2, h3, h4⟩ := h _ _ hs
  obtain ⟨h1', h2', h3', h4'⟩ := h _ _ hs'
  have k1 : (a : ℝ) ≤ A := by exact_mod_cast h1
  have k2 : (b : ℝ) ≤ B := by exact_mod_cast h2
  have k3 : (0 : ℝ) ≤ a' := by positivity
  have k4 : (0 : ℝ) ≤ b' := by positivity
  refine ⟨?_, ?_, by linarith⟩
  · exact le_trans (mul_le_mul_of_nonneg_right (by linarith) hx.le) hA
  · exact le_trans (mul_le_mul_of_nonneg_right (by linarith) hy.le) hB

theorem small1 (P Q : G) {x y : ℝ} {k : ℕ} (hx : 0 < x) (hxy : x ≤ y) (hG : Fintype.card G ≤ 3 * (k + 1) ^ 2 + 1) (h : (k + 1) * (y - x) ≤ y) :
    ∃ a b : ℤ, P ^ a * Q ^ b = 1 ∧ ¬ (a = 0 ∧ b = 0) ∧ hex (a * x) (b * y) ≤ (k + 1) * (x + y) := by
  have hy : 0 < y := by linarith
  let T : Finset (Σ _ : ℕ, ℕ) := (range (2 * k + 2)).sigma fun b => if b ≤ k + 1 then Icc (k + 1 - b) (2 * (k + 1)) else range (3 * (k + 1) - b)
  refine pigeon' P Q T ?_ (w0 := (k + 1) * x) (A := 2 * (k + 1)) (B := 2 * k + 1) hx hy ?_ ?_ ?_
  · have hc : #T = ∑ j ∈ range (k + 2), (k + 2 + j) + ∑ j ∈ range k, (k + 2 + j) := by
      rw [card_sigma, show 2 * k + 2 = (k + 2) + k by ring, sum_range_add]
      congr 1
      · refine sum_congr rfl fun b hb => ?_
        have := mem_range.1 hb
        rw [if_pos (by omega), Nat.card_Icc]
        omega
      · rw [← sum_range_reflect]
        refine sum_congr rfl fun b hb => ?_
        have := mem_range.1 hb
        rw [if_neg (by omega), card_range]
        omega
    have g1 := gauss (k + 2) (k + 2)
    have g2 := gauss (k + 2) k
    have e1 : (k + 2) * (k + 2 - 1) = k * k + 3 * k + 2 := by rw [show k + 2 - 1 = k + 1 by omega]; ring
    have e2 : k * (k - 1) + k = k * k := by
      rcases k with _ | k
      · rfl
      · simp only [Nat.add_sub_cancel]; ring
    rw [e1] at g1
    have : 2 * #T = 2 * (3 * (k + 1) ^ 2 + (k + 1) + 1) := by
      rw [hc, mul_add, g1, g2]
      nlinarith
    omega
  · push_cast; nlinarith
  · push_cast; nlinarith
  · intro b a hab
    simp only [T, mem_sigma, mem_range] at hab
    obtain ⟨hb, ha⟩ := hab
    have hb' : (b : ℝ) ≤ 2 * k + 1 := by exact_mod_cast (by omega : b ≤ 2 * k + 1)
    have b0 : (0 : ℝ) ≤ b := by positivity
    have a0 : (0 : ℝ) ≤ a := by positivity
    split at ha
    · rename_i hbk
      rw [mem_Icc] at ha
      have k1 : (k : ℝ) + 1 ≤ a + b := by exact_mod_cast (by omega : k + 1 ≤ a + b)
      have k2 : (a : ℝ) ≤ 2 * (k + 1) := by exact_mod_cast ha.2
      have k3 : (b : ℝ) ≤ k + 1 := by exact_mod_cast hbk
      refine ⟨ha.2, by omega, ?_, ?_⟩
      · nlinarith [mul_le_mul_of_nonneg_right k1 hx.le, mul_le_mul_of_nonneg_left hxy b0]
      · nlinarith [mul_le_mul_of_nonneg_right k2 hx.le, mul_le_mul_of_nonneg_right k3 hy.le]
    · rename_i hbk
      rw [mem_range] at ha
      have k1 : (k : ℝ) + 1 ≤ b := by exact_mod_cast (by omega : k + 1 ≤ b)
      have k2 : (a : ℝ) ≤ 3 * (k + 1) - 1 - b := by
        have : a + b + 1 ≤ 3 * (k + 1) := by omega
        have : (a : ℝ) + b + 1 ≤ 3 * (k + 1) := by exact_mod_cast this
        linarith
      refine ⟨by omega, by omega, ?_, ?_⟩
      · nlinarith [mul_le_mul_of_nonneg_right k1 hx.le, mul_le_mul_of_nonneg_left hxy b0, mul_nonneg a0 hx.le]
      · nlinarith [mul_le_mul_of_nonneg_right k2 hx.le, mul_le_mul_of_nonneg_left hb' (sub_nonneg.2 hxy)]

theorem small2 (P Q : G) {x y : ℝ} {k : ℕ} (hk : 1 ≤ k) (hx : 0 < x) (hxy : x ≤ y) (hG : Fintype.card G ≤ 3 * (k + 1) ^ 2 + 1)
    (h1 : x ≤ (k + 1) * (y - x)) (h2 : (k + 1) * (y - x) ≤ 2 * x) :
    ∃ a b : ℤ, P ^ a * Q ^ b = 1 ∧ ¬ (a = 0 ∧ b = 0) ∧ hex (a * x) (b * y) ≤ (k + 1) * (x + y) := by
  have hy : 0 < y := by linarith
  let T : Finset (Σ _ : ℕ, ℕ) := (range (k + (1 + k))).sigma fun b =>
    if b < k then (if b + 1 = k then Icc 2 (2 * k + 3) else Icc (k - b + 2) (2 * k + 3)) else if b = k then range (2 * k + 4) else range (2 * (k + 1) + 1 - (b - k))
  refine pigeon' P Q T ?_ (w0 := k * y) (A := 2 * k + 3) (B := 2 * k) hx hy ?_ ?_ ?_
  · have hc : #T = ∑ j ∈ range (k - 1), (k + 2 + j) + (2 * k + 2) + ((2 * k + 4) + ∑ j ∈ range k, (k + 3 + j)) := by
      rw [card_sigma, sum_range_add, sum_range_add, sum_range_one]
      congr 1
      · obtain ⟨m, rfl⟩ : ∃ m, k = m + 1 := ⟨k - 1, by omega⟩
        rw [sum_range_succ]
        congr 1
        · refine sum_congr rfl fun b hb => ?_
          have := mem_range.1 hb
          rw [if_pos (by omega), if_neg (by omega), Nat.card_Icc]
          omega
        · rw [if_pos (by omega), if_pos rfl, Nat.card_Icc]
          omega
      congr 1
      · rw [if_neg (by omega), if_pos (by omega), card_range]
      · rw [← sum_range_reflect]
        refine sum_congr rfl fun b hb => ?_
        have := mem_range.1 hb
        rw [if_neg (by omega), if_neg (by omega), card_range]
        omega
    have g1 := gauss (k + 2) (k - 1)
    have g2 := gauss (k + 3) k
    obtain ⟨m, rfl⟩ : ∃ m, k = m + 1 := ⟨k - 1, by omega⟩
    simp only [Nat.add_sub_cancel] at g1 g2 hc
    have e2 : m * (m - 1) + m = m * m := by
      rcases m with _ | k
      · rfl
      · simp only [Nat.add_sub_cancel]; ring
    have : 2 * #T = 2 * (3 * (m + 1 + 1) ^ 2 + 2) := by
      rw [hc]
      nlinarith
    omega
  · push_cast; nlinarith
  · push_cast; nlinarith
  · intro b a hab
    simp only [T, mem_sigma, mem_range] at hab
    obtain ⟨hb, ha⟩ := hab
    have k0 : (1 : ℝ) ≤ k := by exact_mod_cast hk
    have hb' : (b : ℝ) ≤ 2 * k := by exact_mod_cast (by omega : b ≤ 2 * k)
    have b0 : (0 : ℝ) ≤ b := by positivity
    have a0 : (0 : ℝ) ≤ a := by positivity
    have d0 : 0 ≤ y - x := by linarith
    split at ha
    · rename_i hbk
      have hbk' : (b : ℝ) ≤ k := by exact_mod_cast hbk.le
      have ha' : (k : ℝ) * y ≤ a * x + b * y ∧ a ≤ 2 * k + 3 := by
        split at ha
        · rename_i e
          rw [mem_Icc] at ha
          have k1 : (2 : ℝ) ≤ a := by exact_mod_cast ha.1
          have k2 : (b : ℝ) = k - 1 := by
            have : (b : ℝ) + 1 = k := by exact_mod_cast e
            linarith
          refine ⟨?_, ha.2⟩
          rw [k2]
          nlinarith
        · rw [mem_Icc] at ha
          refine ⟨?_, ha.2⟩
          have k1 : (k : ℝ) + 2 ≤ a + b := by exact_mod_cast (by omega : k + 2 ≤ a + b)
          nlinarith [mul_le_mul_of_nonneg_right k1 hx.le, mul_nonneg b0 d0]
      refine ⟨ha'.2, by omega, ha'.1, ?_⟩
      have k2 : (a : ℝ) ≤ 2 * k + 3 := by exact_mod_cast ha'.2
      nlinarith [mul_le_mul_of_nonneg_right k2 hx.le, mul_le_mul_of_nonneg_right hbk' hy.le]
    · split at ha
      · rename_i e
        subst e
        rw [mem_range] at ha
        have k2 : (a : ℝ) ≤ 2 * b + 3 := by exact_mod_cast (by omega : a ≤ 2 * b + 3)
        refine ⟨by omega, by omega, by nlinarith [mul_nonneg a0 hx.le], ?_⟩
        nlinarith [mul_le_mul_of_nonneg_right k2 hx.le]
      · rename_i e1 e2
        rw [mem_range] at ha
        have k1 : (k : ℝ) ≤ b := by exact_mod_cast (by omega : k ≤ b)
        have k2 : (a : ℝ) + b ≤ 3 * k + 2 := by exact_mod_cast (by omega : a + b ≤ 3 * k + 2)
        refine ⟨by omega, by omega, by nlinarith [mul_nonneg a0 hx.le, mul_le_mul_of_nonneg_right k1 hy.le], ?_⟩
        nlinarith [mul_le_mul_of_nonneg_right k2 hx.le, mul_le_mul_of_nonneg_right hb' d0]

/-- relations of size `M (x + y)` exist in groups with at most `3 M² + 1` elements, for `M ≠ 0` -/
theorem exists_small_le (P Q : G) {x y : ℝ} {k : ℕ} (hx : 0 < x) (hxy : x ≤ y) (hG : Fintype.card G ≤ 3 * (k + 1) ^ 2 + 1) :
    ∃ a b : ℤ, P ^ a * Q ^ b = 1 ∧ ¬ (a = 0 ∧ b = 0) ∧ hex (a * x) (b * y) ≤ (k + 1) * (x + y) := by
  have hy : 0 < y := by linarith
  rcases le_or_gt ((k + 1) * (y - x)) y with h1 | h1
  · exact small1 P Q hx hxy hG h1
  have hk : 1 ≤ k := by
    rcases k with _ | k
    · simp at h1; linarith
    · omega
  rcases le_or_gt ((k + 1) * (y - x)) (2 * x) with h2 | h2
  · exact small2 P Q hk hx hxy hG (by linarith) h2
  refine exists_small P Q hx hy (by positivity) ?_
  have h3 : (Fintype.card G : ℝ) ≤ 3 * (k + 1) ^ 2 + 1 := by exact_mod_cast hG
  have h4 := mul_le_mul_of_nonneg_left h3 (by positivity : (0 : ℝ) ≤ 4 * (x * y))
  have h5 : 2 * x * y ≤ ((k + 1) * (y - x)) * ((k + 1) * (y - x)) := mul_le_mul h2.le h1.le hy.le (by linarith)
  nlinarith [mul_pos hx hy]

theorem exists_small' (P Q : G) {x y : ℝ} {M : ℕ} (hM : 1 ≤ M) (hx : 0 < x) (hy : 0 < y) (hG : Fintype.card G ≤ 3 * M ^ 2 + 1) :
    ∃ a b : ℤ, P ^ a * Q ^ b = 1 ∧ ¬ (a = 0 ∧ b = 0) ∧ hex (a * x) (b * y) ≤ M * (x + y) := by
  obtain ⟨k, rfl⟩ : ∃ k, M = k + 1 := ⟨M - 1, by omega⟩
  push_cast
  rcases le_total x y with h | h
  · exact exists_small_le P Q hx h hG
  · obtain ⟨a, b, h1, h2, h3⟩ := exists_small_le Q P hy h hG
    refine ⟨b, a, by rw [mul_comm]; exact h1, fun h => h2 ⟨h.2, h.1⟩, ?_⟩
    rw [hex_le] at h3 ⊢
    rw [add_comm x y, add_comm (b * x)]
    exact ⟨h3.2.1, h3.1, h3.2.2⟩

end Verif.Aks
