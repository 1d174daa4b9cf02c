import Verif.Model.IntPoly
import Verif.Proofs.Polynomial
import Mathlib.Analysis.Polynomial.MahlerMeasure
import Mathlib.Analysis.Polynomial.CauchyBound
import Mathlib.Data.Nat.Choose.Central

/-!
# Bounds for the coefficients of factors and for roots
-/

namespace Verif.Rings

open Polynomial

/-- the sum of the absolute values of the coefficients -/
noncomputable def l1 (f : ℤ[X]) : ℕ := f.sum fun _ a => a.natAbs

theorem intCast_injective_C : Function.Injective (Int.castRingHom ℂ) := Int.cast_injective

theorem mahler_factor (f g h : ℤ[X]) (hf : f ≠ 0) (e : f = g * h) (i : ℕ) :
    (h.leadingCoeff * g.coeff i).natAbs ≤ g.natDegree.choose (g.natDegree / 2) * l1 f := by
  set φ := Int.castRingHom ℂ
  have hinj : Function.Injective φ := Int.cast_injective
  have hM : (g.map φ).mahlerMeasure * (h.map φ).mahlerMeasure ≤ (l1 f : ℝ) := by
    rw [← mahlerMeasure_mul, ← Polynomial.map_mul, ← e]
    refine (mahlerMeasure_le_sum_norm_coeff _).trans (le_of_eq ?_)
    unfold l1 Polynomial.sum
    rw [support_map_of_injective f hinj]
    push_cast
    refine Finset.sum_congr rfl fun j _ => ?_
    rw [coeff_map]
    change ‖((f.coeff j : ℤ) : ℂ)‖ = _
    rw [Complex.norm_intCast, Nat.cast_natAbs, Int.cast_abs]
  have h1 : ‖(g.map φ).coeff i‖ ≤ (g.natDegree.choose (g.natDegree / 2) : ℝ) * (g.map φ).mahlerMeasure := by
    have := norm_coeff_le_choose_mul_mahlerMeasure i (g.map φ)
    rw [natDegree_map_eq_of_injective hinj] at this
    refine this.trans ?_
    gcongr
    · exact mahlerMeasure_nonneg _
    · exact Nat.choose_le_middle i _
  have h2 : ‖(h.map φ).leadingCoeff‖ ≤ (h.map φ).mahlerMeasure := leadingCoeff_le_mahlerMeasure _
  have h3 : ‖(h.map φ).leadingCoeff‖ * ‖(g.map φ).coeff i‖ ≤ (g.natDegree.choose (g.natDegree / 2) : ℝ) * (l1 f : ℝ) := by
    calc ‖(h.map φ).leadingCoeff‖ * ‖(g.map φ).coeff i‖
        ≤ (h.map φ).mahlerMeasure * ((g.natDegree.choose (g.natDegree / 2) : ℝ) * (g.map φ).mahlerMeasure) :=
          mul_le_mul h2 h1 (norm_nonneg _) (mahlerMeasure_nonneg _)
      _ = (g.natDegree.choose (g.natDegree / 2) : ℝ) * ((g.map φ).mahlerMeasure * (h.map φ).mahlerMeasure) := by ring
      _ ≤ _ := by gcongr
  rw [leadingCoeff_map_of_injective hinj, coeff_map] at h3
  change ‖((h.leadingCoeff : ℤ) : ℂ)‖ * ‖((g.coeff i : ℤ) : ℂ)‖ ≤ _ at h3
  rw [Complex.norm_intCast, Complex.norm_intCast, ← abs_mul] at h3
  have : (((h.leadingCoeff * g.coeff i).natAbs : ℕ) : ℝ) ≤ ((g.natDegree.choose (g.natDegree / 2) * l1 f : ℕ) : ℝ) := by
    rw [Nat.cast_natAbs]
    push_cast
    exact h3
  exact_mod_cast this

theorem choose_middle_mono {m n : ℕ} (h : m ≤ n) : m.choose (m / 2) ≤ n.choose (n / 2) :=
  (Nat.choose_le_choose _ h).trans (Nat.choose_le_middle _ n)

theorem choose_middle_lt {m n : ℕ} (h : m < n) (hn : 2 ≤ n) : m.choose (m / 2) < n.choose (n / 2) := by
  obtain ⟨k, rfl⟩ : ∃ k, n = k + 1 := ⟨n - 1, by omega⟩
  refine lt_of_le_of_lt (choose_middle_mono (show m ≤ k by omega)) ?_
  have h1 : (k + 1).choose (k / 2 + 1) ≤ (k + 1).choose ((k + 1) / 2) := Nat.choose_le_middle _ _
  have h2 : (k + 1).choose (k / 2 + 1) = k.choose (k / 2) + k.choose (k / 2 + 1) := Nat.choose_succ_succ _ _
  have h3 : 0 < k.choose (k / 2 + 1) := Nat.choose_pos (by omega)
  omega

/-- the bound of Cauchy, in rational numbers -/
theorem root_bound (f : ℤ[X]) (hf : f ≠ 0) (B : ℚ) (hB : ∀ i < f.natDegree, |(f.coeff i : ℚ) / (f.leadingCoeff : ℚ)| ≤ B - 1)
    (hB1 : 1 ≤ B) (z : ℂ) (hz : (f.map (Int.castRingHom ℂ)).IsRoot z) : ‖z‖ < B := by
  have hinj : Function.Injective (Int.castRingHom ℂ) := Int.cast_injective
  have hne : f.map (Int.castRingHom ℂ) ≠ 0 := (Polynomial.map_ne_zero_iff hinj).2 hf
  have h1 := IsRoot.norm_lt_cauchyBound hne hz
  have h1' : ‖z‖ < (cauchyBound (f.map (Int.castRingHom ℂ)) : ℝ) := by exact_mod_cast h1
  refine lt_of_lt_of_le h1' ?_
  rw [cauchyBound]
  push_cast
  have hB0 : (0 : ℚ) ≤ B - 1 := by linarith
  have hlc : (0 : ℝ) < |(f.leadingCoeff : ℝ)| := abs_pos.2 (by exact_mod_cast leadingCoeff_ne_zero.2 hf)
  have key : (((Finset.range (f.map (Int.castRingHom ℂ)).natDegree).sup fun i => ‖(f.map (Int.castRingHom ℂ)).coeff i‖₊ : NNReal) : ℝ)
      ≤ (B - 1 : ℚ) * |(f.leadingCoeff : ℝ)| := by
    have : ((Finset.range (f.map (Int.castRingHom ℂ)).natDegree).sup fun i => ‖(f.map (Int.castRingHom ℂ)).coeff i‖₊ : NNReal)
        ≤ ⟨(B - 1 : ℚ) * |(f.leadingCoeff : ℝ)|, by positivity⟩ := by
      refine Finset.sup_le fun i hi => ?_
      rw [Finset.mem_range, natDegree_map_eq_of_injective hinj] at hi
      refine NNReal.coe_le_coe.1 ?_
      rw [coe_nnnorm, coeff_map]
      change ‖((f.coeff i : ℤ) : ℂ)‖ ≤ (B - 1 : ℚ) * |(f.leadingCoeff : ℝ)|
      rw [Complex.norm_intCast]
      have hq := hB i hi
      rw [abs_div, div_le_iff₀ (by exact_mod_cast hlc)] at hq
      have : ((|(f.coeff i : ℚ)| : ℚ) : ℝ) ≤ ((B - 1) * |(f.leadingCoeff : ℚ)| : ℚ) := by exact_mod_cast hq
      push_cast at this ⊢
      exact this
    exact_mod_cast this
  rw [leadingCoeff_map_of_injective hinj]
  have hn : ‖(Int.castRingHom ℂ) f.leadingCoeff‖ = |(f.leadingCoeff : ℝ)| := by
    change ‖((f.leadingCoeff : ℤ) : ℂ)‖ = _
    rw [Complex.norm_intCast]
  rw [hn]
  have := (div_le_iff₀ hlc).2 key
  push_cast at this
  linarith

/-- the coefficient below the leading one of a factor -/
theorem next_coeff_bound (f g h : ℤ[X]) (hf : f ≠ 0) (e : f = g * h) (B : ℚ)
    (hB : ∀ z, (f.map (Int.castRingHom ℂ)).IsRoot z → ‖z‖ ≤ B) (hg : 0 < g.natDegree) :
    (|(h.leadingCoeff * g.coeff (g.natDegree - 1) : ℤ)| : ℚ) ≤ |(f.leadingCoeff : ℚ)| * B * g.natDegree := by
  set φ := Int.castRingHom ℂ
  have hinj : Function.Injective φ := Int.cast_injective
  have hg0 : g ≠ 0 := fun e' => by rw [e', zero_mul] at e; exact hf e
  have hgm : g.map φ ≠ 0 := (Polynomial.map_ne_zero_iff hinj).2 hg0
  have hnc : (g.map φ).nextCoeff = φ (g.coeff (g.natDegree - 1)) := by
    rw [nextCoeff_map hinj, nextCoeff_of_natDegree_pos hg]
  have hs := (IsAlgClosed.splits (g.map φ)).nextCoeff_eq_neg_sum_roots_mul_leadingCoeff
  have hcard := (IsAlgClosed.splits (g.map φ)).natDegree_eq_card_roots
  have hsum : ‖(g.map φ).roots.sum‖ ≤ (g.natDegree : ℝ) * B := by
    have h1 : ‖(g.map φ).roots.sum‖ ≤ ((g.map φ).roots.map fun z => ‖z‖).sum := norm_multiset_sum_le _
    have h2 : ((g.map φ).roots.map fun z => ‖z‖).sum ≤ Multiset.card ((g.map φ).roots.map fun z => ‖z‖) • (B : ℝ) := by
      refine Multiset.sum_le_card_nsmul _ _ fun x hx => ?_
      obtain ⟨z, hz, rfl⟩ := Multiset.mem_map.1 hx
      refine hB z ?_
      have := isRoot_of_mem_roots hz
      rw [e, Polynomial.map_mul, IsRoot.def, eval_mul, this.eq_zero, zero_mul]
    rw [Multiset.card_map, ← hcard, natDegree_map_eq_of_injective hinj, nsmul_eq_mul] at h2
    exact h1.trans h2
  have hlc : f.leadingCoeff = g.leadingCoeff * h.leadingCoeff := by rw [e, leadingCoeff_mul]
  have hfin : ‖φ (h.leadingCoeff * g.coeff (g.natDegree - 1))‖ ≤ |(f.leadingCoeff : ℝ)| * B * g.natDegree := by
    rw [map_mul, ← hnc, hs, leadingCoeff_map_of_injective hinj]
    have : φ h.leadingCoeff * (-φ g.leadingCoeff * (g.map φ).roots.sum) = -(φ f.leadingCoeff * (g.map φ).roots.sum) := by
      rw [hlc, map_mul]; ring
    rw [this, norm_neg, norm_mul]
    have hn : ‖φ f.leadingCoeff‖ = |(f.leadingCoeff : ℝ)| := by
      change ‖((f.leadingCoeff : ℤ) : ℂ)‖ = _
      rw [Complex.norm_intCast]
    rw [hn]
    calc |(f.leadingCoeff : ℝ)| * ‖(g.map φ).roots.sum‖ ≤ |(f.leadingCoeff : ℝ)| * ((g.natDegree : ℝ) * B) := by gcongr
      _ = _ := by ring
  change ‖((h.leadingCoeff * g.coeff (g.natDegree - 1) : ℤ) : ℂ)‖ ≤ _ at hfin
  rw [Complex.norm_intCast] at hfin
  exact_mod_cast hfin

end Verif.Rings
