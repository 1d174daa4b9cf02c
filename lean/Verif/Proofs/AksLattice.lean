import Mathlib.Data.ZMod.Units
import Mathlib.Algebra.Order.Archimedean.Basic
import Mathlib.Data.Int.GCD
import Mathlib.Analysis.SpecialFunctions.Log.Basic
import Mathlib.Algebra.Order.ToIntervalMod
import Mathlib.Combinatorics.Pigeonhole
import Mathlib.Tactic.LinearCombination
import Mathlib.Tactic.Linarith

/-!
# Small multiplicative relations modulo a prime

For two units `P`, `Q` of a finite commutative group with at most `φ` elements and positive reals `x`, `y` there are integers `a`, `b`, not both zero,
with `P^a Q^b = 1` and `|a x|, |b y|, |a x + b y| ≤ t`, if `4 x y φ ≤ 3 t²`. This is Minkowski's theorem for a hexagon, proved with a shortest vector.
-/

namespace Verif.Aks

/-- the norm with a hexagonal unit ball -/
def hex (X Y : ℝ) : ℝ := max |X| (max |Y| |X + Y|)

theorem hex_lt {X Y t : ℝ} : hex X Y < t ↔ |X| < t ∧ |Y| < t ∧ |X + Y| < t := by
  simp [hex, max_lt_iff]

theorem hex_le {X Y t : ℝ} : hex X Y ≤ t ↔ |X| ≤ t ∧ |Y| ≤ t ∧ |X + Y| ≤ t := by
  simp [hex, max_le_iff]

theorem hex_neg (X Y : ℝ) : hex (-X) (-Y) = hex X Y := by
  rw [hex, hex, abs_neg, abs_neg, show -X + -Y = -(X + Y) by ring, abs_neg]

/-- rotation of the three coordinates `X`, `Y`, `-(X + Y)` -/
theorem hex_rot (X Y : ℝ) : hex Y (-(X + Y)) = hex X Y := by
  rw [hex, hex, abs_neg, show Y + -(X + Y) = -X by ring, abs_neg, max_comm |X|, max_assoc]

/-- the chord argument, first coordinate largest and positive -/
theorem chord_aux {X1 Y1 X2 Y2 l : ℝ} (hl : 0 < l) (hX : X1 = l) (hY : |Y1| ≤ l) (hZ : |X1 + Y1| ≤ l) (h0 : 0 < X1 * Y2 - X2 * Y1)
    (h1 : 4 * (X1 * Y2 - X2 * Y1) < 3 * l ^ 2) : ∃ k : ℤ, hex (X2 + k * X1) (Y2 + k * Y1) < l := by
  subst hX
  obtain ⟨a, ha⟩ : ∃ a : ℝ, Y1 = -(a * X1) := ⟨-Y1 / X1, by field_simp⟩
  subst ha
  rw [abs_le] at hY hZ
  have ha0 : 0 ≤ a := by nlinarith
  have ha1 : a ≤ 1 := by nlinarith
  have hq : 0 ≤ (2 * a - 1) ^ 2 := sq_nonneg _
  rcases eq_or_lt_of_le ha1 with e | e
  · subst e
    obtain ⟨k, hk, -⟩ := existsUnique_add_zsmul_mem_Ico hl X2 0
    simp only [zsmul_eq_mul, Set.mem_Ico, zero_add] at hk
    refine ⟨k, hex_lt.2 ?_⟩
    simp only [abs_lt]
    have hS : X1 * (Y2 + X2) = X1 * Y2 - X2 * -(1 * X1) := by ring
    have hs : X2 + Y2 < X1 := by nlinarith
    have hs0 : 0 < X2 + Y2 := by nlinarith
    refine ⟨⟨by linarith, by linarith⟩, ⟨by linarith, by linarith⟩, by linarith, by linarith⟩
  · obtain ⟨k, hk, -⟩ := existsUnique_add_zsmul_mem_Ioc hl X2 (-((1 - a) * X1))
    simp only [zsmul_eq_mul, Set.mem_Ioc] at hk
    obtain ⟨hk1, hk2⟩ := hk
    refine ⟨k, hex_lt.2 ?_⟩
    generalize hx : X2 + k * X1 = x at *
    generalize hy : Y2 + k * -(a * X1) = y at *
    have hE : X1 * Y2 - X2 * -(a * X1) = X1 * (y + a * x) := by rw [← hx, ← hy]; ring
    rw [hE] at h0 h1
    have hp : 0 < y + a * x := by nlinarith
    have hlt : 4 * (y + a * x) < 3 * X1 := by nlinarith
    simp only [abs_lt]
    have hxu : x ≤ a * X1 := by linarith
    have k1 : 0 ≤ a * (x + (1 - a) * X1) := mul_nonneg ha0 (by linarith)
    have k2 : 0 ≤ a * (a * X1 - x) := mul_nonneg ha0 (by linarith)
    have k3 : 0 ≤ (1 - a) * (x + (1 - a) * X1) := mul_nonneg (by linarith) (by linarith)
    have k4 : 0 ≤ (1 - a) * (a * X1 - x) := mul_nonneg (by linarith) (by linarith)
    have k5 : 0 ≤ X1 * (2 * a - 1) ^ 2 := by positivity
    have k6 : 0 ≤ X1 * a * (1 - a) := mul_nonneg (by positivity) (by linarith)
    have k7 : 0 ≤ a * X1 := by positivity
    have k8 : 0 < (1 - a) * X1 := mul_pos (by linarith) hl
    refine ⟨⟨by nlinarith, by nlinarith⟩, ⟨by nlinarith, by nlinarith⟩, by nlinarith, by nlinarith⟩

theorem chord_aux' {X1 Y1 X2 Y2 l : ℝ} (hl : 0 < l) (hX : |X1| = l) (hY : |Y1| ≤ l) (hZ : |X1 + Y1| ≤ l) (h0 : 0 < X1 * Y2 - X2 * Y1)
    (h1 : 4 * (X1 * Y2 - X2 * Y1) < 3 * l ^ 2) : ∃ k : ℤ, hex (X2 + k * X1) (Y2 + k * Y1) < l := by
  rcases le_or_gt 0 X1 with h | h
  · exact chord_aux hl (by rwa [abs_of_nonneg h] at hX) hY hZ h0 h1
  · obtain ⟨k, hk⟩ := chord_aux (X1 := -X1) (Y1 := -Y1) (X2 := -X2) (Y2 := -Y2) hl (by rwa [abs_of_neg h] at hX) (by rwa [abs_neg])
      (by rwa [show -X1 + -Y1 = -(X1 + Y1) by ring, abs_neg]) (by linarith) (by linarith)
    refine ⟨k, ?_⟩
    rw [← hex_neg]
    convert hk using 2 <;> ring

/-- the chord argument: a vector at a small positive determinant can be moved by multiples of `v₁` to a vector shorter than `v₁` -/
theorem chord {X1 Y1 X2 Y2 : ℝ} (hl : 0 < hex X1 Y1) (h0 : 0 < X1 * Y2 - X2 * Y1) (h1 : 4 * (X1 * Y2 - X2 * Y1) < 3 * hex X1 Y1 ^ 2) :
    ∃ k : ℤ, hex (X2 + k * X1) (Y2 + k * Y1) < hex X1 Y1 := by
  obtain ⟨l1, l2, l3⟩ := hex_le.1 (le_refl (hex X1 Y1))
  have hor : |X1| = hex X1 Y1 ∨ |Y1| = hex X1 Y1 ∨ |X1 + Y1| = hex X1 Y1 := by
    rcases max_choice |X1| (max |Y1| |X1 + Y1|) with e | e
    · exact Or.inl e.symm
    · rcases max_choice |Y1| |X1 + Y1| with e' | e'
      · exact Or.inr (Or.inl (by rw [hex, e, e']))
      · exact Or.inr (Or.inr (by rw [hex, e, e']))
  rcases hor with e | e | e
  · exact chord_aux' hl e l2 l3 h0 h1
  · obtain ⟨k, hk⟩ := chord_aux' (X1 := Y1) (Y1 := -(X1 + Y1)) (X2 := Y2) (Y2 := -(X2 + Y2)) hl e (by rwa [abs_neg])
      (by rwa [show Y1 + -(X1 + Y1) = -X1 by ring, abs_neg]) (by linarith) (by linarith)
    refine ⟨k, ?_⟩
    rw [← hex_rot]
    convert hk using 2
    ring
  · obtain ⟨k, hk⟩ := chord_aux' (X1 := -(X1 + Y1)) (Y1 := X1) (X2 := -(X2 + Y2)) (Y2 := X2) hl (by rwa [abs_neg]) l1
      (by rwa [show -(X1 + Y1) + X1 = -Y1 by ring, abs_neg]) (by linarith) (by linarith)
    refine ⟨k, ?_⟩
    rw [← hex_rot, ← hex_rot]
    convert hk using 2 <;> ring

variable {G : Type*} [CommGroup G] [Fintype G]

/-- a second relation at a determinant of at most the order of the group -/
theorem exists_det (P Q : G) {a1 b1 : ℤ} (h1 : P ^ a1 * Q ^ b1 = 1) (hne : ¬ (a1 = 0 ∧ b1 = 0))
    (hmin : ∀ g : ℕ, ∀ a b l : ℤ, a1 = g * a → b1 = g * b → l ≠ 0 → |l| < g → P ^ (l * a) * Q ^ (l * b) ≠ 1) :
    ∃ a b : ℤ, P ^ a * Q ^ b = 1 ∧ 0 < a1 * b - a * b1 ∧ a1 * b - a * b1 ≤ Fintype.card G := by
  classical
  have hg : 0 < Int.gcd a1 b1 := by
    rw [Nat.pos_iff_ne_zero, Ne, Int.gcd_eq_zero_iff]
    exact hne
  obtain ⟨a', ha⟩ := Int.gcd_dvd_left a1 b1
  obtain ⟨b', hb⟩ := Int.gcd_dvd_right a1 b1
  have hbez := Int.gcd_eq_gcd_ab a1 b1
  generalize Int.gcdA a1 b1 = v at hbez
  generalize Int.gcdB a1 b1 = u at hbez
  generalize hgg : Int.gcd a1 b1 = g at *
  have hgz : (g : ℤ) ≠ 0 := by exact_mod_cast hg.ne'
  have hdet : a' * v + b' * u = 1 := by
    apply mul_left_cancel₀ hgz
    rw [mul_one]
    calc (g : ℤ) * (a' * v + b' * u) = a1 * v + b1 * u := by rw [ha, hb]; ring
      _ = g := hbez.symm
  set φ := Fintype.card G
  let f : ℕ × ℕ → G := fun kl => P ^ (-(kl.1 : ℤ) * u + kl.2 * a') * Q ^ ((kl.1 : ℤ) * v + kl.2 * b')
  have hcard : (Finset.univ : Finset G).card < (Finset.range (φ / g + 1) ×ˢ Finset.range g).card := by
    rw [Finset.card_product, Finset.card_range, Finset.card_range, Finset.card_univ, mul_comm]
    exact Nat.lt_mul_div_succ φ hg
  obtain ⟨x, hx, y, hy, hxy, hfe⟩ := Finset.exists_ne_map_eq_of_card_lt_of_maps_to hcard (f := f) fun _ _ => by simp
  have key : ∀ x y : ℕ × ℕ, x ∈ Finset.range (φ / g + 1) ×ˢ Finset.range g → y ∈ Finset.range (φ / g + 1) ×ˢ Finset.range g → f x = f y → y.1 < x.1 →
      ∃ a b : ℤ, P ^ a * Q ^ b = 1 ∧ 0 < a1 * b - a * b1 ∧ a1 * b - a * b1 ≤ φ := by
    intro x y hx hy hf hlt
    simp only [Finset.mem_product, Finset.mem_range] at hx hy
    refine ⟨-((x.1 : ℤ) - y.1) * u + ((x.2 : ℤ) - y.2) * a', ((x.1 : ℤ) - y.1) * v + ((x.2 : ℤ) - y.2) * b', ?_, ?_⟩
    · have : P ^ (-(x.1 : ℤ) * u + x.2 * a') * Q ^ ((x.1 : ℤ) * v + x.2 * b') * (P ^ (-(y.1 : ℤ) * u + y.2 * a') * Q ^ ((y.1 : ℤ) * v + y.2 * b'))⁻¹ = 1 := by
        rw [mul_inv_eq_one]; exact hf
      rw [← this, mul_inv, ← zpow_neg, ← zpow_neg, mul_mul_mul_comm, ← zpow_add, ← zpow_add]
      congr 2 <;> ring
    · have e : a1 * (((x.1 : ℤ) - y.1) * v + ((x.2 : ℤ) - y.2) * b') - (-((x.1 : ℤ) - y.1) * u + ((x.2 : ℤ) - y.2) * a') * b1 = g * ((x.1 : ℤ) - y.1) := by
        rw [ha, hb]; linear_combination (g : ℤ) * ((x.1 : ℤ) - y.1) * hdet
      rw [e]
      have h2 : g * (φ / g) ≤ φ := Nat.mul_div_le φ g
      have h3 : ((g * (φ / g) : ℕ) : ℤ) ≤ φ := by exact_mod_cast h2
      constructor
      · apply mul_pos (by exact_mod_cast hg)
        omega
      · refine le_trans ?_ h3
        push_cast
        apply mul_le_mul_of_nonneg_left _ (by positivity)
        have : (x.1 : ℤ) ≤ (φ / g : ℕ) := by exact_mod_cast Nat.lt_succ_iff.1 hx.1
        push_cast at this
        omega
  rcases lt_trichotomy x.1 y.1 with h | h | h
  · exact key y x hy hx hfe.symm h
  · exfalso
    have h2 : x.2 ≠ y.2 := fun e => hxy (Prod.ext h e)
    simp only [Finset.mem_product, Finset.mem_range] at hx hy
    refine hmin g a' b' ((x.2 : ℤ) - y.2) ha hb (by omega) (by rw [abs_lt]; omega) ?_
    have : P ^ (-(x.1 : ℤ) * u + x.2 * a') * Q ^ ((x.1 : ℤ) * v + x.2 * b') * (P ^ (-(y.1 : ℤ) * u + y.2 * a') * Q ^ ((y.1 : ℤ) * v + y.2 * b'))⁻¹ = 1 := by
      rw [mul_inv_eq_one]; exact hfe
    rw [h] at this
    rw [← this, mul_inv, ← zpow_neg, ← zpow_neg, mul_mul_mul_comm, ← zpow_add, ← zpow_add]
    congr 2 <;> ring
  · exact key x y hx hy hfe h

/-- a shortest nonzero relation -/
theorem exists_shortest (P Q : G) {x y : ℝ} (hx : 0 < x) (hy : 0 < y) : ∃ a1 b1 : ℤ, P ^ a1 * Q ^ b1 = 1 ∧ ¬ (a1 = 0 ∧ b1 = 0) ∧
    ∀ a b : ℤ, P ^ a * Q ^ b = 1 → ¬ (a = 0 ∧ b = 0) → hex (a1 * x) (b1 * y) ≤ hex (a * x) (b * y) := by
  classical
  set N := hex ((Fintype.card G : ℤ) * x) ((0 : ℤ) * y)
  set B : ℤ := max ⌈N / x⌉ ⌈N / y⌉
  set S : Set (ℤ × ℤ) := {v | P ^ v.1 * Q ^ v.2 = 1 ∧ ¬ (v.1 = 0 ∧ v.2 = 0) ∧ hex (v.1 * x) (v.2 * y) ≤ N}
  have hfin : S.Finite := by
    apply (Set.Finite.prod (Set.finite_Icc (-B) B) (Set.finite_Icc (-B) B)).subset
    rintro ⟨a, b⟩ ⟨-, -, h⟩
    obtain ⟨h1, h2, -⟩ := hex_le.1 h
    rw [abs_mul, abs_of_pos hx, ← le_div_iff₀ hx] at h1
    rw [abs_mul, abs_of_pos hy, ← le_div_iff₀ hy] at h2
    have k1 : |a| ≤ B := by
      have : ((|a| : ℤ) : ℝ) ≤ (⌈N / x⌉ : ℤ) := by push_cast; exact h1.trans (Int.le_ceil _)
      exact (Int.cast_le.1 this).trans (le_max_left _ _)
    have k2 : |b| ≤ B := by
      have : ((|b| : ℤ) : ℝ) ≤ (⌈N / y⌉ : ℤ) := by push_cast; exact h2.trans (Int.le_ceil _)
      exact (Int.cast_le.1 this).trans (le_max_right _ _)
    rw [abs_le] at k1 k2
    exact ⟨⟨k1.1, k1.2⟩, k2.1, k2.2⟩
  have hne : S.Nonempty := ⟨(Fintype.card G, 0), by simp [S, N]⟩
  obtain ⟨v, hv, hmin⟩ := Set.exists_min_image S (fun v => hex (v.1 * x) (v.2 * y)) hfin hne
  refine ⟨v.1, v.2, hv.1, hv.2.1, fun a b h1 h2 => ?_⟩
  by_cases h : hex (a * x) (b * y) ≤ N
  · exact hmin (a, b) ⟨h1, h2, h⟩
  · exact hv.2.2.trans (not_le.1 h).le

/-- Minkowski's theorem for the hexagon and the lattice of relations between two elements of a finite group -/
theorem exists_small (P Q : G) {x y t : ℝ} (hx : 0 < x) (hy : 0 < y) (ht : 0 ≤ t) (h : 4 * (x * y) * Fintype.card G ≤ 3 * t ^ 2) :
    ∃ a b : ℤ, P ^ a * Q ^ b = 1 ∧ ¬ (a = 0 ∧ b = 0) ∧ hex (a * x) (b * y) ≤ t := by
  obtain ⟨a1, b1, h1, hne, hmin⟩ := exists_shortest P Q hx hy
  refine ⟨a1, b1, h1, hne, ?_⟩
  by_contra hlt
  rw [not_le] at hlt
  set l := hex (a1 * x) (b1 * y) with hl
  have hl0 : 0 < l := lt_of_le_of_lt ht hlt
  obtain ⟨a, b, e, d0, d1⟩ := exists_det P Q h1 hne (by
    intro g a b k ha hb hk hkg e
    have hz : ¬ (k * a = 0 ∧ k * b = 0) := by
      rintro ⟨e1, e2⟩
      rcases mul_eq_zero.1 e1 with e1 | e1
      · exact hk e1
      rcases mul_eq_zero.1 e2 with e2 | e2
      · exact hk e2
      exact hne ⟨by rw [ha, e1, mul_zero], by rw [hb, e2, mul_zero]⟩
    have h2 := hmin _ _ e hz
    have hg : (0 : ℝ) < g := by
      have : (0 : ℤ) < g := lt_of_le_of_lt (abs_nonneg k) hkg
      exact_mod_cast this
    have h3 : hex ((k * a : ℤ) * x) ((k * b : ℤ) * y) = |(k : ℝ)| / g * l := by
      have hc : 0 ≤ |(k : ℝ)| / g := by positivity
      rw [hl, hex, hex, mul_max_of_nonneg _ _ hc, mul_max_of_nonneg _ _ hc]
      have e1 : (a1 : ℝ) = g * a := by rw [ha]; push_cast; ring
      have e2 : (b1 : ℝ) = g * b := by rw [hb]; push_cast; ring
      rw [e1, e2]
      have hk' : ∀ z w : ℝ, w = g * z → |(k : ℝ) * z| = |(k : ℝ)| / g * |w| := by
        rintro z w rfl
        rw [abs_mul, abs_mul, abs_of_pos hg]
        field_simp
      rw [← hk' (a * x) _ (by ring), ← hk' (b * y) _ (by ring), ← hk' (a * x + b * y) _ (by ring)]
      rw [show ((k * a : ℤ) : ℝ) * x = k * (a * x) by push_cast; ring, show ((k * b : ℤ) : ℝ) * y = k * (b * y) by push_cast; ring, ← mul_add]
    rw [h3] at h2
    have h4 : |(k : ℝ)| / g < 1 := by
      rw [div_lt_one hg]
      exact_mod_cast hkg
    have h5 := mul_lt_mul_of_pos_right h4 hl0
    linarith)
  obtain ⟨k, hk⟩ := chord (X1 := a1 * x) (Y1 := b1 * y) (X2 := a * x) (Y2 := b * y) hl0 (by
      have : (0 : ℝ) < ((a1 * b - a * b1 : ℤ) : ℝ) := by exact_mod_cast d0
      push_cast at this
      nlinarith [mul_pos hx hy, mul_pos (mul_pos hx hy) this]) (by
      have : ((a1 * b - a * b1 : ℤ) : ℝ) ≤ Fintype.card G := by exact_mod_cast d1
      push_cast at this
      have h6 := mul_le_mul_of_nonneg_left this (mul_pos hx hy).le
      rw [← hl]
      nlinarith [pow_lt_pow_left₀ hlt ht two_ne_zero])
  refine absurd (hmin (a + k * a1) (b + k * b1) ?_ ?_) (not_le.2 ?_)
  · rw [zpow_add, zpow_add, mul_mul_mul_comm, e, one_mul, mul_comm k a1, mul_comm k b1, zpow_mul, zpow_mul, ← mul_zpow, h1, one_zpow]
  · rintro ⟨e1, e2⟩
    have : a1 * b - a * b1 = 0 := by linear_combination a1 * e2 - b1 * e1
    omega
  · have e1 : ((a + k * a1 : ℤ) : ℝ) * x = a * x + k * (a1 * x) := by push_cast; ring
    have e2 : ((b + k * b1 : ℤ) : ℝ) * y = b * y + k * (b1 * y) := by push_cast; ring
    rw [e1, e2]
    exact hk

end Verif.Aks
