import Verif.Model.IntPoly
import Verif.Proofs.IntBounds
import Verif.Proofs.Natural
import Verif.Proofs.Numbers
import Verif.Props.Polynomial

/-!
# The bounds computed by the model
-/

namespace Verif.Rings

open Polynomial

theorem l1_polyVal (f : List Int) : l1 (polyVal (id : Int → Int) f) = (f.map Int.natAbs).sum := by
  have h : ∀ n, f.length ≤ n → l1 (polyVal (id : Int → Int) f) = ∑ i ∈ Finset.range n, ((polyVal (id : Int → Int) f).coeff i).natAbs := by
    intro n hn
    rw [l1, Polynomial.sum_over_range' _ (by simp) (n + 1) ?_, Finset.sum_range_succ, coeff_polyVal_ge _ _ _ hn]
    · simp
    · by_cases e : polyVal (id : Int → Int) f = 0
      · rw [e]; simp
      · have := polyVal_natDegree_lt (v := (id : Int → Int)) f e
        omega
  rw [h f.length le_rfl]
  clear h
  induction f with
  | nil => simp
  | cons c f ih =>
    rw [List.length_cons, Finset.sum_range_succ', List.map_cons, List.sum_cons, ← ih]
    simp only [polyVal_cons, coeff_add, coeff_X_mul, coeff_C_succ, coeff_C_zero, coeff_X_mul_zero, zero_add, add_zero, id]
    rw [add_comm]

theorem mignotteBound_none (f : List Int) (hf : polyVal (id : Int → Int) f = 0) : mignotteBound f = some none := by
  rw [mignotteBound, intOps_models.toSemi.polyDegree_none f hf]

theorem mignotteBound_some (f : List Int) (hf : polyVal (id : Int → Int) f ≠ 0) :
    mignotteBound f = some (some (l1 (polyVal (id : Int → Int) f) *
      (polyVal (id : Int → Int) f).natDegree.choose ((polyVal (id : Int → Int) f).natDegree / 2))) := by
  rw [mignotteBound, intOps_models.toSemi.polyDegree_some f hf]
  simp only [Natural.chooseUsize_eq, l1_polyVal, Option.map_some]

theorem foldl_max_le (a : ℚ) (l : List ℚ) : a ≤ l.foldl max a ∧ ∀ x ∈ l, x ≤ l.foldl max a := by
  induction l generalizing a with
  | nil => simp
  | cons b l ih =>
    rw [List.foldl_cons]
    obtain ⟨h1, h2⟩ := ih (max a b)
    refine ⟨(le_max_left a b).trans h1, fun x hx => ?_⟩
    rcases List.mem_cons.1 hx with rfl | hx
    · exact (le_max_right a x).trans h1
    · exact h2 x hx

theorem cauchyRootBound_none (f : List Int) (hf : (polyVal (id : Int → Int) f).natDegree = 0) : cauchyRootBound f = some none := by
  rw [cauchyRootBound]
  by_cases e : polyVal (id : Int → Int) f = 0
  · rw [intOps_models.toSemi.polyDegree_none f e]
  · rw [intOps_models.toSemi.polyDegree_some f e, hf]; rfl

theorem cauchyRootBound_some (f : List Int) (hf : 0 < (polyVal (id : Int → Int) f).natDegree) :
    ∃ B : ℚ, cauchyRootBound f = some (some B) ∧ 1 ≤ B ∧ ∀ i < (polyVal (id : Int → Int) f).natDegree,
      |((polyVal (id : Int → Int) f).coeff i : ℚ) / ((polyVal (id : Int → Int) f).leadingCoeff : ℚ)| ≤ B - 1 := by
  have hne : polyVal (id : Int → Int) f ≠ 0 := fun e => by rw [e] at hf; simp at hf
  have hc : ∀ i, intOps.polyCoeff f i = (polyVal (id : Int → Int) f).coeff i := fun i => intOps_models.toSemi.polyCoeff f i
  rw [cauchyRootBound, intOps_models.toSemi.polyDegree_some f hne]
  simp only [hc]
  rw [if_neg hf.ne']
  set F := polyVal (id : Int → Int) f with hF
  obtain ⟨n, hn⟩ : ∃ n, F.natDegree = n + 1 := ⟨F.natDegree - 1, by omega⟩
  obtain ⟨x, l, hl⟩ : ∃ x l, (List.range F.natDegree).map (fun i => |(F.coeff i : ℚ) / (F.coeff F.natDegree : ℚ)|) = x :: l := by
    rw [hn, List.range_succ_eq_map, List.map_cons]; exact ⟨_, _, rfl⟩
  have hall : ∀ y ∈ x :: l, y ≤ l.foldl max x := by
    intro y hy
    obtain ⟨h1, h2⟩ := foldl_max_le x l
    rcases List.mem_cons.1 hy with rfl | hy
    · exact h1
    · exact h2 y hy
  rw [← hl] at hall
  have hx : 0 ≤ x := by
    have : x ∈ (List.range F.natDegree).map (fun i => |(F.coeff i : ℚ) / (F.coeff F.natDegree : ℚ)|) := by rw [hl]; simp
    obtain ⟨i, -, rfl⟩ := List.mem_map.1 this
    exact abs_nonneg _
  refine ⟨1 + l.foldl max x, by rw [hl]; rfl, ?_, ?_⟩
  · have := (foldl_max_le x l).1; linarith
  · intro i hi
    have := hall _ (List.mem_map.2 ⟨i, List.mem_range.2 hi, rfl⟩)
    rw [Polynomial.leadingCoeff]; linarith

end Verif.Rings
