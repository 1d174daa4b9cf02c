import Verif.Proofs.PadicVal
import Mathlib.NumberTheory.Padics.Hensel
import Mathlib.NumberTheory.Padics.RingHoms
import Mathlib.RingTheory.Polynomial.Resultant.Basic
import Mathlib.Algebra.Polynomial.Identities

/-!
# Roots of integer polynomials in the `p`-adic integers
-/

namespace Verif.Padic

open Polynomial

variable {p : ℕ} [hp : Fact p.Prime]

theorem iadd_le {x y : ℤ_[p]} {r : ℝ} (h1 : ‖x‖ ≤ r) (h2 : ‖y‖ ≤ r) : ‖x + y‖ ≤ r :=
  (PadicInt.nonarchimedean x y).trans (max_le h1 h2)

theorem isub_le {x y : ℤ_[p]} {r : ℝ} (h1 : ‖x‖ ≤ r) (h2 : ‖y‖ ≤ r) : ‖x - y‖ ≤ r := by
  rw [sub_eq_add_neg]; exact iadd_le h1 (by rwa [norm_neg])

theorem inorm_eq_of_close {x y : ℤ_[p]} (h : ‖x - y‖ < ‖y‖) : ‖x‖ = ‖y‖ := by
  have h2 : ‖x - y + y‖ = max ‖x - y‖ ‖y‖ := PadicInt.norm_add_eq_max_of_ne h.ne
  rwa [sub_add_cancel, max_eq_right h.le] at h2

theorem aeval_sub_le (F : ℤ[X]) (x y : ℤ_[p]) : ‖aeval x F - aeval y F‖ ≤ ‖x - y‖ := by
  obtain ⟨k, hk⟩ := evalSubFactor (F.map (algebraMap ℤ ℤ_[p])) x y
  rw [eval_map_algebraMap, eval_map_algebraMap] at hk
  rw [hk, norm_mul]
  exact mul_le_of_le_one_left (norm_nonneg _) (PadicInt.norm_le_one _)

theorem aeval_taylor (F : ℤ[X]) (x h : ℤ_[p]) : ∃ k : ℤ_[p], aeval (x + h) F = aeval x F + aeval x (derivative F) * h + k * h ^ 2 := by
  obtain ⟨k, hk⟩ := binomExpansion (F.map (algebraMap ℤ ℤ_[p])) x h
  rw [derivative_map, eval_map_algebraMap, eval_map_algebraMap, eval_map_algebraMap] at hk
  exact ⟨k, hk⟩

/-- two roots closer than the derivative are equal -/
theorem root_unique {F : ℤ[X]} {z w : ℤ_[p]} (hz : aeval z F = 0) (hw : aeval w F = 0) (h : ‖w - z‖ < ‖aeval z (derivative F)‖) : w = z := by
  by_contra hne
  have hne' : w - z ≠ 0 := sub_ne_zero.2 hne
  obtain ⟨k, hk⟩ := aeval_taylor F z (w - z)
  rw [add_sub_cancel, hz, hw, zero_add, pow_two, ← mul_assoc, ← add_mul] at hk
  have h1 : aeval z (derivative F) + k * (w - z) = 0 := (mul_eq_zero.1 hk.symm).resolve_right hne'
  have h2 : aeval z (derivative F) = -(k * (w - z)) := eq_neg_of_add_eq_zero_left h1
  rw [h2, norm_neg, norm_mul] at h
  exact absurd h (not_lt.2 (mul_le_of_le_one_left (norm_nonneg _) (PadicInt.norm_le_one _)))

/-- the roots of `F` in a residue class -/
def ClassRoots (F : ℤ[X]) (i : ℤ_[p]) (β : ℕ) : Set ℤ_[p] := {z | aeval z F = 0 ∧ ‖z - i‖ ≤ (p : ℝ) ^ (-(β : ℤ))}

theorem close_trans {x y z : ℤ_[p]} {r : ℝ} (h1 : ‖x - y‖ ≤ r) (h2 : ‖y - z‖ ≤ r) : ‖x - z‖ ≤ r := by
  have : x - z = (x - y) + (y - z) := by ring
  rw [this]; exact iadd_le h1 h2

theorem classRoots_congr (F : ℤ[X]) {i j : ℤ_[p]} {β : ℕ} (h : ‖i - j‖ ≤ (p : ℝ) ^ (-(β : ℤ))) : ClassRoots F i β = ClassRoots F j β := by
  ext z
  constructor
  · rintro ⟨h1, h2⟩; exact ⟨h1, close_trans h2 h⟩
  · rintro ⟨h1, h2⟩; exact ⟨h1, close_trans h2 (by rw [norm_sub_rev]; exact h)⟩

/-- in a class with a root where the derivative has valuation `β - 1`, the value at the centre is small enough for Hensel's lemma -/
theorem small_of_root {F : ℤ[X]} {i z : ℤ_[p]} {δ : ℕ} (hz : z ∈ ClassRoots F i (δ + 1)) (hd : ‖aeval i (derivative F)‖ = (p : ℝ) ^ (-(δ : ℤ))) :
    ‖aeval i F‖ ≤ (p : ℝ) ^ (-(2 * δ + 1 : ℤ)) := by
  obtain ⟨k, hk⟩ := aeval_taylor F i (z - i)
  rw [add_sub_cancel, hz.1] at hk
  have h1 : aeval i F = -(aeval i (derivative F) * (z - i)) - k * (z - i) ^ 2 := by linear_combination -hk
  have hzi : ‖z - i‖ ≤ (p : ℝ) ^ (-((δ : ℤ) + 1)) := by exact_mod_cast hz.2
  rw [h1]
  apply isub_le
  · rw [norm_neg, norm_mul, hd]
    calc _ ≤ (p : ℝ) ^ (-(δ : ℤ)) * (p : ℝ) ^ (-((δ : ℤ) + 1)) := mul_le_mul_of_nonneg_left hzi (zpow_pos p_pos _).le
      _ = _ := by rw [← zpow_add₀ p_pos.ne']; congr 1; ring
  · rw [norm_mul, norm_pow]
    calc _ ≤ 1 * ((p : ℝ) ^ (-((δ : ℤ) + 1))) ^ 2 :=
          mul_le_mul (PadicInt.norm_le_one _) (pow_le_pow_left₀ (norm_nonneg _) hzi 2) (by positivity) zero_le_one
      _ = (p : ℝ) ^ (-(2 * δ + 2 : ℤ)) := by rw [one_mul, ← zpow_natCast, ← zpow_mul]; congr 1; push_cast; ring
      _ ≤ _ := zpow_le_zpow_right₀ p_one.le (by omega)

/-- Hensel's lemma in the form used here -/
theorem hensel_root {F : ℤ[X]} {i : ℤ_[p]} {δ : ℕ} (hd : ‖aeval i (derivative F)‖ = (p : ℝ) ^ (-(δ : ℤ)))
    (hs : ‖aeval i F‖ < (p : ℝ) ^ (-(2 * δ : ℤ))) : ∃ z, z ∈ ClassRoots F i (δ + 1) := by
  have hn : ‖aeval i F‖ < ‖aeval i (derivative F)‖ ^ 2 := by
    rw [hd, ← zpow_natCast, ← zpow_mul]
    convert hs using 2
    push_cast; ring
  obtain ⟨z, h1, h2, -⟩ := hensels_lemma hn
  refine ⟨z, h1, ?_⟩
  rw [hd] at h2
  have := (PadicInt.norm_lt_pow_iff_norm_le_pow_sub_one (z - i) (-(δ : ℤ))).1 h2
  convert this using 2
  push_cast; ring

theorem aeval_deriv_class {F : ℤ[X]} {i z : ℤ_[p]} {δ : ℕ} (hd : ‖aeval i (derivative F)‖ = (p : ℝ) ^ (-(δ : ℤ)))
    (hz : ‖z - i‖ ≤ (p : ℝ) ^ (-((δ + 1 : ℕ) : ℤ))) : ‖aeval z (derivative F)‖ = (p : ℝ) ^ (-(δ : ℤ)) := by
  rw [← hd]
  apply inorm_eq_of_close
  rw [hd]
  exact ((aeval_sub_le _ _ _).trans hz).trans_lt (zpow_lt_zpow_right₀ p_one (by push_cast; omega))

/-- the next digit -/
theorem exists_digit {i z : ℤ_[p]} {β : ℕ} (h : ‖z - i‖ ≤ (p : ℝ) ^ (-(β : ℤ))) :
    ∃ k < p, ‖z - (i + (k : ℤ_[p]) * (p : ℤ_[p]) ^ β)‖ ≤ (p : ℝ) ^ (-((β + 1 : ℕ) : ℤ)) := by
  have h1 : z - i ∈ Ideal.span {(p : ℤ_[p]) ^ β} := (PadicInt.norm_le_pow_iff_mem_span_pow _ _).1 h
  obtain ⟨w, hw⟩ := Ideal.mem_span_singleton.1 h1
  refine ⟨w.zmodRepr, PadicInt.zmodRepr_lt_p w, ?_⟩
  have h2 : z - (i + (w.zmodRepr : ℤ_[p]) * (p : ℤ_[p]) ^ β) = (w - w.zmodRepr) * (p : ℤ_[p]) ^ β := by linear_combination hw
  rw [h2, norm_mul, PadicInt.norm_p_pow]
  have h3 : ‖w - (w.zmodRepr : ℤ_[p])‖ ≤ (p : ℝ) ^ (-1 : ℤ) := by
    have := PadicInt.norm_sub_zmodRepr_lt_one w
    have h4 := (PadicInt.norm_lt_pow_iff_norm_le_pow_sub_one (w - (w.zmodRepr : ℤ_[p])) 0).1 (by simpa using this)
    simpa using h4
  calc _ ≤ (p : ℝ) ^ (-1 : ℤ) * (p : ℝ) ^ (-(β : ℤ)) := mul_le_mul_of_nonneg_right h3 (zpow_pos p_pos _).le
    _ = _ := by rw [← zpow_add₀ p_pos.ne']; congr 1; push_cast; ring

theorem digit_unique {i z : ℤ_[p]} {β k l : ℕ} (hk : k < p) (hl : l < p)
    (h1 : ‖z - (i + (k : ℤ_[p]) * (p : ℤ_[p]) ^ β)‖ ≤ (p : ℝ) ^ (-((β + 1 : ℕ) : ℤ)))
    (h2 : ‖z - (i + (l : ℤ_[p]) * (p : ℤ_[p]) ^ β)‖ ≤ (p : ℝ) ^ (-((β + 1 : ℕ) : ℤ))) : k = l := by
  have h3 : ‖(((l : ℤ) - (k : ℤ) : ℤ) : ℤ_[p]) * (p : ℤ_[p]) ^ β‖ ≤ (p : ℝ) ^ (-((β + 1 : ℕ) : ℤ)) := by
    have e : (((l : ℤ) - (k : ℤ) : ℤ) : ℤ_[p]) * (p : ℤ_[p]) ^ β =
      (z - (i + (k : ℤ_[p]) * (p : ℤ_[p]) ^ β)) - (z - (i + (l : ℤ_[p]) * (p : ℤ_[p]) ^ β)) := by push_cast; ring
    rw [e]; exact isub_le h1 h2
  rw [norm_mul, PadicInt.norm_p_pow] at h3
  have h4 : (p : ℝ) ^ (-((β + 1 : ℕ) : ℤ)) = (p : ℝ) ^ (-((1 : ℕ) : ℤ)) * (p : ℝ) ^ (-(β : ℤ)) := by
    rw [← zpow_add₀ p_pos.ne']; congr 1; push_cast; ring
  rw [h4] at h3
  have h5 := le_of_mul_le_mul_right h3 (zpow_pos p_pos _)
  rw [PadicInt.norm_int_le_pow_iff_dvd] at h5
  have h6 : k ≡ l [MOD p] := Int.natCast_modEq_iff.1 (Int.modEq_iff_dvd.2 (by simpa using h5))
  exact Nat.ModEq.eq_of_lt_of_lt h6 hk hl

/-- the discriminant is divisible by the derivative at every root -/
theorem discr_le {F : ℤ[X]} (hF : 2 ≤ F.natDegree) {z : ℤ_[p]} (hz : aeval z F = 0) : ‖(F.discr : ℤ_[p])‖ ≤ ‖aeval z (derivative F)‖ := by
  set φ : ℤ →+* ℤ_[p] := algebraMap ℤ ℤ_[p] with hφ
  have hinj : Function.Injective φ := by
    intro a b hab
    have : ((a : ℤ) : ℤ_[p]) = (b : ℤ_[p]) := by simpa [hφ] using hab
    exact_mod_cast this
  set G := F.map φ with hG
  have hGd : G.natDegree = F.natDegree := natDegree_map_eq_of_injective hinj F
  have hroot : G.IsRoot z := by rw [IsRoot, hG, eval_map_algebraMap]; exact hz
  obtain ⟨g, hg⟩ := dvd_iff_isRoot.2 hroot
  have hF0 : F ≠ 0 := fun e => by rw [e, natDegree_zero] at hF; omega
  have hG0 : G ≠ 0 := fun e => by rw [e, natDegree_zero] at hGd; omega
  have hg0 : g ≠ 0 := fun e => hG0 (by rw [hg, e, mul_zero])
  have hdeg : G.natDegree = 1 + g.natDegree := by
    rw [hg, natDegree_mul (X_sub_C_ne_zero z) hg0, natDegree_X_sub_C]
  set m := g.natDegree with hm
  have hm1 : 1 ≤ m := by omega
  have hder : derivative G = g + (X - C z) * derivative g := by
    rw [hg, derivative_mul, derivative_X_sub_C, one_mul]
  have hderv : eval z (derivative G) = eval z g := by rw [hder]; simp
  have hdd : (derivative G).natDegree ≤ m := by
    have := natDegree_derivative_le G; omega
  have hgd : (derivative g).natDegree = m - 1 := natDegree_derivative _
  have e1 : resultant G (derivative G) (1 + m) m = eval z (derivative G) * resultant g (derivative G) m m := by
    conv_lhs => rw [hg]
    have := resultant_mul_left (X - C z) g (derivative G) m hdd
    rw [natDegree_X_sub_C, resultant_X_sub_C_left _ _ _ hdd] at this
    rw [← hg] at this ⊢
    exact this
  have e2 : resultant g (derivative G) m m = resultant g ((X - C z) * derivative g) m m := by
    have := resultant_add_mul_right g ((X - C z) * derivative g) 1 m m (by simp) (le_refl _)
    rw [← this, hder, mul_one, add_comm]
  have e3 : resultant g ((X - C z) * derivative g) m m = ((-1) ^ m * eval z g) * resultant g (derivative g) m (m - 1) := by
    have := resultant_mul_right g (X - C z) (derivative g) m (le_refl _)
    rw [natDegree_X_sub_C, hgd, resultant_X_sub_C_right _ _ _ (le_refl _)] at this
    rw [← this]; congr 1; omega
  have e4 := resultant_deriv (f := g) (natDegree_pos_iff_degree_pos.1 (by omega))
  have e5 := resultant_deriv (f := F) (natDegree_pos_iff_degree_pos.1 (by omega))
  have e6 : resultant G (derivative G) (1 + m) m = φ (resultant F (derivative F) F.natDegree (F.natDegree - 1)) := by
    rw [← resultant_map_map, ← derivative_map]
    congr 1 <;> omega
  have hlc : g.leadingCoeff = φ F.leadingCoeff := by
    have : G.leadingCoeff = g.leadingCoeff := by rw [hg, leadingCoeff_mul, leadingCoeff_X_sub_C, one_mul]
    rw [← this, hG, leadingCoeff_map_of_injective hinj]
  have hlc0 : φ F.leadingCoeff ≠ 0 := by rw [← hlc]; exact leadingCoeff_ne_zero.2 hg0
  rw [e6, e5, e2, e3, e4, hlc, hderv] at e1
  have hφd : φ F.discr = (F.discr : ℤ_[p]) := by simp [hφ]
  simp only [map_mul, map_pow, map_neg, map_one, hφd] at e1
  have hn := congrArg norm e1
  simp only [norm_mul, norm_pow, norm_neg, norm_one, one_pow, one_mul] at hn
  have hln : 0 < ‖φ F.leadingCoeff‖ := norm_pos_iff.2 hlc0
  have hval : ‖aeval z (derivative F)‖ = ‖eval z g‖ := by
    rw [← hderv, hG, derivative_map, eval_map_algebraMap]
  rw [hval]
  have hfin : ‖(F.discr : ℤ_[p])‖ = ‖eval z g‖ * ‖eval z g‖ * ‖g.discr‖ := by
    apply mul_left_cancel₀ hln.ne'
    rw [hn]; ring
  rw [hfin, mul_assoc]
  exact mul_le_of_le_one_right (norm_nonneg _) (mul_le_one₀ (PadicInt.norm_le_one _) (norm_nonneg _) (PadicInt.norm_le_one _))

end Verif.Padic
