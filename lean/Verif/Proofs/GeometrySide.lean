import Verif.Proofs.GeometrySimplex
import Mathlib.LinearAlgebra.Matrix.NonsingularInverse
import Mathlib.LinearAlgebra.LinearIndependent.Lemmas
import Mathlib.Analysis.Convex.Between

/-! # The sides of a hyperplane -/

namespace Verif.Geometry

open Verif.Rings

section Math
variable {K : Type} [Field K]

theorem span_succ {n d : Nat} (p : Fin (n + 1) → Fin d → K) :
    (affineSpan K (Set.range p)).direction = Submodule.span K (Set.range fun i : Fin n => p i.succ - p 0) := by
  rw [direction_affineSpan, vectorSpan_range_eq_span_range_vsub_right K p 0]
  apply le_antisymm
  · rw [Submodule.span_le]
    rintro _ ⟨i, rfl⟩
    refine Fin.cases ?_ (fun i => ?_) i
    · simp
    · exact Submodule.subset_span ⟨i, rfl⟩
  · apply Submodule.span_mono
    rintro _ ⟨i, rfl⟩
    exact ⟨i.succ, rfl⟩

/-- the linear function whose sign tells the sides of the hyperplane through the points apart -/
theorem exists_functional {n : Nat} {p : Fin (n + 1) → Fin (n + 1) → K} (hp : AffineIndependent K p) :
    ∃ L : (Fin (n + 1) → K) →ₗ[K] K,
      (∀ w, L w = (Matrix.of (Fin.snoc (fun i => p i.succ - p 0) w : Fin (n + 1) → Fin (n + 1) → K)).det) ∧
      LinearMap.ker L = (affineSpan K (Set.range p)).direction := by
  have hL : ∀ w, (Matrix.detRowAlternating (n := Fin (n + 1)) (R := K)).toMultilinearMap.toLinearMap
      (Fin.snoc (fun i => p i.succ - p 0) 0 : Fin (n + 1) → Fin (n + 1) → K) (Fin.last n) w =
      (Matrix.of (Fin.snoc (fun i => p i.succ - p 0) w : Fin (n + 1) → Fin (n + 1) → K)).det := by
    intro w
    rw [MultilinearMap.toLinearMap_apply, Fin.update_snoc_last]
    rfl
  refine ⟨_, hL, ?_⟩
  ext w
  rw [LinearMap.mem_ker, hL, span_succ]
  have h1 : LinearIndependent K (fun i : Fin n => p i.succ - p 0) := (affineIndependent_fin_succ p).1 hp
  have h2 := linearIndependent_finSnoc (K := K) (v := fun i : Fin n => p i.succ - p 0) (x := w)
  have h3 := Matrix.linearIndependent_rows_iff_isUnit (A := Matrix.of (Fin.snoc (fun i => p i.succ - p 0) w : Fin (n + 1) → Fin (n + 1) → K))
  rw [Matrix.isUnit_iff_isUnit_det, isUnit_iff_ne_zero] at h3
  have h4 : LinearIndependent K (Fin.snoc (fun i => p i.succ - p 0) w : Fin (n + 1) → Fin (n + 1) → K) ↔
      w ∉ Submodule.span K (Set.range fun i : Fin n => p i.succ - p 0) := by rw [h2]; exact and_iff_right h1
  rw [← not_iff_not, ← h4]
  exact h3.symm

variable [LinearOrder K] [IsStrictOrderedRing K] {d : Nat} {L : (Fin d → K) →ₗ[K] K} {s : AffineSubspace K (Fin d → K)} {p0 : Fin d → K}

theorem mem_iff_functional (hp : p0 ∈ s) (hL : LinearMap.ker L = s.direction) (x : Fin d → K) : x ∈ s ↔ L (x - p0) = 0 := by
  rw [← LinearMap.mem_ker, hL]
  exact (AffineSubspace.vsub_right_mem_direction_iff_mem hp x).symm

theorem sameSide_iff_functional (hp : p0 ∈ s) (hL : LinearMap.ker L = s.direction) (x y : Fin d → K) :
    s.SSameSide x y ↔ 0 < L (x - p0) * L (y - p0) := by
  have hm := mem_iff_functional hp hL
  rw [AffineSubspace.sSameSide_iff_exists_left hp, hm, hm]
  constructor
  · rintro ⟨hx, hy, p2, hp2, h0⟩
    have hy' : L (y - p2) = L (y - p0) := by
      have := (hm p2).1 hp2
      have e : y - p2 = (y - p0) - (p2 - p0) := by abel
      rw [e, map_sub, this, sub_zero]
    rcases h0 with h0 | h0 | ⟨r1, r2, hr1, hr2, he⟩
    · rw [vsub_eq_sub] at h0; rw [h0] at hx; simp at hx
    · rw [vsub_eq_sub] at h0; rw [← hy', h0] at hy; simp at hy
    · have := congrArg L he
      simp only [vsub_eq_sub, map_smul, smul_eq_mul, hy'] at this
      have e2 : L (y - p0) = r1 / r2 * L (x - p0) := by field_simp; linarith
      rw [e2]
      have : 0 < r1 / r2 := div_pos hr1 hr2
      have h3 := mul_self_pos.2 hx
      nlinarith
  · intro hpos
    have hx : L (x - p0) ≠ 0 := fun e => by rw [e] at hpos; simp at hpos
    have hy : L (y - p0) ≠ 0 := fun e => by rw [e] at hpos; simp at hpos
    refine ⟨hx, hy, y - (L (y - p0) / L (x - p0)) • (x - p0), ?_, ?_⟩
    · rw [hm]
      have e : y - (L (y - p0) / L (x - p0)) • (x - p0) - p0 = (y - p0) - (L (y - p0) / L (x - p0)) • (x - p0) := by abel
      rw [e, map_sub, map_smul, smul_eq_mul, div_mul_cancel₀ _ hx, sub_self]
    · right; right
      refine ⟨L (y - p0) / L (x - p0), 1, ?_, one_pos, ?_⟩
      · have : L (y - p0) / L (x - p0) = L (x - p0) * L (y - p0) / (L (x - p0) * L (x - p0)) := by field_simp
        rw [this]
        exact div_pos hpos (mul_self_pos.2 hx)
      · rw [one_smul]
        simp

theorem oppSide_iff_functional (hp : p0 ∈ s) (hL : LinearMap.ker L = s.direction) (x y : Fin d → K) :
    s.SOppSide x y ↔ L (x - p0) * L (y - p0) < 0 := by
  have hm := mem_iff_functional hp hL
  rw [AffineSubspace.sOppSide_iff_exists_left hp, hm, hm]
  constructor
  · rintro ⟨hx, hy, p2, hp2, h0⟩
    have hy' : L (p2 - y) = -L (y - p0) := by
      have := (hm p2).1 hp2
      have e : p2 - y = (p2 - p0) - (y - p0) := by abel
      rw [e, map_sub, this, zero_sub]
    rcases h0 with h0 | h0 | ⟨r1, r2, hr1, hr2, he⟩
    · rw [vsub_eq_sub] at h0; rw [h0] at hx; simp at hx
    · rw [vsub_eq_sub] at h0
      rw [h0, map_zero] at hy'
      exact absurd (neg_eq_zero.1 hy'.symm) hy
    · have := congrArg L he
      simp only [vsub_eq_sub, map_smul, smul_eq_mul, hy'] at this
      have e2 : L (y - p0) = -(r1 / r2 * L (x - p0)) := by field_simp; linarith
      rw [e2]
      have : 0 < r1 / r2 := div_pos hr1 hr2
      have h3 := mul_self_pos.2 hx
      nlinarith
  · intro hneg
    have hx : L (x - p0) ≠ 0 := fun e => by rw [e] at hneg; simp at hneg
    have hy : L (y - p0) ≠ 0 := fun e => by rw [e] at hneg; simp at hneg
    refine ⟨hx, hy, y - (L (y - p0) / L (x - p0)) • (x - p0), ?_, ?_⟩
    · rw [hm]
      have e : y - (L (y - p0) / L (x - p0)) • (x - p0) - p0 = (y - p0) - (L (y - p0) / L (x - p0)) • (x - p0) := by abel
      rw [e, map_sub, map_smul, smul_eq_mul, div_mul_cancel₀ _ hx, sub_self]
    · right; right
      refine ⟨-(L (y - p0) / L (x - p0)), 1, ?_, one_pos, ?_⟩
      · have : -(L (y - p0) / L (x - p0)) = -(L (x - p0) * L (y - p0)) / (L (x - p0) * L (x - p0)) := by field_simp
        rw [this]
        exact div_pos (neg_pos.2 hneg) (mul_self_pos.2 hx)
      · rw [one_smul]
        simp

end Math

end Verif.Geometry
