import Verif.Proofs.HullProper
import Verif.Proofs.HullBoundary
import Verif.Spec.Convex

/-! # The relative interior and the boundary of a triangulated hull -/

namespace Verif.Geometry

open Classical

section
variable {K E E' : Type} [Field K] [LinearOrder K] [IsStrictOrderedRing K] [AddCommGroup E] [Module K E]

theorem openSimplex_sub {A : Finset E} : openSimplex K A ⊆ convexHull K (A : Set E) := by
  rintro x ⟨w, w0, w1, rfl⟩
  exact (Finset.mem_convexHull' (R := K)).2 ⟨w, fun a ha => (w0 a ha).le, w1, rfl⟩

theorem openSimplex_empty : openSimplex K (∅ : Finset E) = ∅ := by
  ext x
  simp only [openSimplex, Finset.sum_empty, Set.mem_setOf_eq, Set.mem_empty_iff_false, iff_false]
  rintro ⟨w, -, h1, -⟩
  exact zero_ne_one h1

/-- weights on an independent set are unique -/
theorem weights_unique {A : Finset E} (hA : AffineIndependent K (fun x : A => (x : E))) {w w' : E → K} (h1 : ∑ a ∈ A, w a = 1) (h1' : ∑ a ∈ A, w' a = 1)
    (he : ∑ a ∈ A, w a • a = ∑ a ∈ A, w' a • a) : ∀ a ∈ A, w a = w' a := by
  rw [affineIndependent_iff_of_fintype] at hA
  have e4 : ∑ x : A, (w x - w' x) = 0 := by rw [Finset.sum_coe_sort A (fun a => w a - w' a), Finset.sum_sub_distrib, h1, h1', sub_self]
  have h2 := hA (fun x => w x - w' x) e4 (by
    rw [Finset.weightedVSub_eq_linear_combination (hw := e4), Finset.sum_coe_sort _ (fun x => (w x - w' x) • x)]
    simp only [sub_smul, Finset.sum_sub_distrib]
    rw [he, sub_self])
  intro a ha
  exact sub_eq_zero.1 (h2 ⟨a, ha⟩)

/-- a face that contains a point of the open simplex is the whole simplex -/
theorem openSimplex_face {A B : Finset E} (hA : AffineIndependent K (fun x : A => (x : E))) (hB : B ⊆ A) {x : E} (hx : x ∈ openSimplex K A)
    (hxB : x ∈ convexHull K (B : Set E)) : A ⊆ B := by
  obtain ⟨w, w0, w1, w2⟩ := hx
  obtain ⟨u, u0, u1, u2⟩ := (Finset.mem_convexHull' (R := K)).1 hxB
  have h1 : ∑ a ∈ A, (if a ∈ B then u a else 0) = 1 := by
    rw [← u1, ← Finset.sum_subset hB (fun a _ hb => if_neg hb)]
    exact Finset.sum_congr rfl fun a ha => if_pos ha
  have h2 : ∑ a ∈ A, (if a ∈ B then u a else 0) • a = x := by
    rw [← u2, ← Finset.sum_subset hB (fun a _ hb => by rw [if_neg hb, zero_smul])]
    exact Finset.sum_congr rfl fun a ha => by rw [if_pos ha]
  intro a ha
  by_contra hb
  have := weights_unique hA w1 h1 (w2.trans h2.symm) a ha
  rw [if_neg hb] at this
  exact (w0 a ha).ne' this

/-- every point of a simplex is in one open face -/
theorem exists_openFace {A : Finset E} {x : E} (hx : x ∈ convexHull K (A : Set E)) : ∃ B ⊆ A, B.Nonempty ∧ x ∈ openSimplex K B := by
  obtain ⟨u, u0, u1, u2⟩ := (Finset.mem_convexHull' (R := K)).1 hx
  have hs : ∀ a ∈ A, a ∉ A.filter (fun a => u a ≠ 0) → u a = 0 := by
    intro a ha hb
    by_contra hh
    exact hb (Finset.mem_filter.2 ⟨ha, hh⟩)
  have h1 : ∑ a ∈ A.filter (fun a => u a ≠ 0), u a = 1 := by
    rw [← u1]
    exact Finset.sum_subset (Finset.filter_subset _ _) hs
  refine ⟨A.filter fun a => u a ≠ 0, Finset.filter_subset _ _, ?_, u, ?_, h1, ?_⟩
  · by_contra hh
    rw [Finset.not_nonempty_iff_eq_empty] at hh
    rw [hh, Finset.sum_empty] at h1
    exact zero_ne_one h1
  · intro a ha
    rw [Finset.mem_filter] at ha
    exact lt_of_le_of_ne (u0 a ha.1) (Ne.symm ha.2)
  · rw [← u2]
    exact Finset.sum_subset (Finset.filter_subset _ _) (fun a ha hb => by rw [hs a ha hb, zero_smul])

theorem openSimplex_image [AddCommGroup E'] [Module K E'] {f : E →ᵃ[K] E'} (hf : Function.Injective f) (A : Finset E) :
    openSimplex K (A.image f) = f '' openSimplex K A := by
  have hcomb : ∀ w : E → K, ∑ a ∈ A, w a = 1 → f (∑ a ∈ A, w a • a) = ∑ a ∈ A, w a • f a := by
    intro w hw
    have h1 := Finset.map_affineCombination A (fun i : E => i) w hw f
    rw [Finset.affineCombination_eq_linear_combination _ _ _ hw, Finset.affineCombination_eq_linear_combination _ _ _ hw] at h1
    simpa using h1
  ext x
  constructor
  · rintro ⟨w, w0, w1, rfl⟩
    rw [Finset.sum_image (fun a _ b _ hab => hf hab)] at w1 ⊢
    refine ⟨∑ a ∈ A, w (f a) • a, ⟨fun a => w (f a), fun a ha => w0 _ (Finset.mem_image_of_mem f ha), w1, rfl⟩, ?_⟩
    exact hcomb (fun a => w (f a)) w1
  · rintro ⟨_, ⟨w, w0, w1, rfl⟩, rfl⟩
    have hinv : ∀ a, w (Function.invFun f (f a)) = w a := fun a => by rw [Function.leftInverse_invFun hf a]
    refine ⟨fun b => w (Function.invFun f b), ?_, ?_, ?_⟩
    · intro b hb
      obtain ⟨a, ha, rfl⟩ := Finset.mem_image.1 hb
      simp only [hinv]; exact w0 a ha
    · rw [Finset.sum_image (fun a _ b _ hab => hf hab)]
      simp only [hinv]; exact w1
    · rw [Finset.sum_image (fun a _ b _ hab => hf hab)]
      simp only [hinv]; exact (hcomb w w1).symm

theorem relInterior_image [AddCommGroup E'] [Module K E'] {f : E →ᵃ[K] E'} (hf : Function.Injective f) (X : Set E) :
    relInterior K (f '' X) = f '' relInterior K X := by
  ext x
  constructor
  · rintro ⟨⟨x, hx, rfl⟩, h2⟩
    refine ⟨x, ⟨hx, fun y hy => ?_⟩, rfl⟩
    obtain ⟨t, t1, z, hz, e⟩ := h2 (f y) ⟨y, hy, rfl⟩
    rw [← AffineMap.apply_lineMap] at e
    exact ⟨t, t1, hf e ▸ hz⟩
  · rintro ⟨x, ⟨hx, h2⟩, rfl⟩
    refine ⟨⟨x, hx, rfl⟩, ?_⟩
    rintro _ ⟨y, hy, rfl⟩
    obtain ⟨t, t1, hz⟩ := h2 y hy
    exact ⟨t, t1, _, hz, AffineMap.apply_lineMap _ _ _ _⟩

/-- faces of the simplices with a common point in their open simplices are equal -/
theorem Proper.open_inj {I : Finset (Finset E)} (hp : Proper K I) (hi : ∀ T ∈ I, AffineIndependent K (fun x : T => (x : E))) {T T' A B : Finset E} (hT : T ∈ I) (hT' : T' ∈ I)
    (hA : A ⊆ T) (hB : B ⊆ T') {x : E} (h1 : x ∈ openSimplex K A) (h2 : x ∈ convexHull K (B : Set E)) : A ⊆ B := by
  have h3 := hp.faces hi hT hT' hA hB (openSimplex_sub h1) h2
  have hAi : AffineIndependent K (fun x : A => (x : E)) := (hi T hT).mono (s := (A : Set E)) (t := (T : Set E)) (Finset.coe_subset.2 hA)
  exact (openSimplex_face hAi Finset.inter_subset_left h1 h3).trans Finset.inter_subset_right

variable [FiniteDimensional K E]

namespace IsHull
variable {I Fc : Finset (Finset E)} {l : Finset E → E →ᵃ[K] K} (h : IsHull I Fc l)
include h

/-- a point of a facet is on the boundary -/
theorem facet_sub {F : Finset E} (hF : F ∈ Fc) {x : E} (hx : x ∈ convexHull K (F : Set E)) : ∀ G ∈ Fc, 0 ≤ l G x :=
  fun _ hG => nonneg_simplex (fun _ hy => h.nonneg_facet hF hG hy) hx

theorem relInterior_iff {x : E} : x ∈ relInterior K {x | ∀ F ∈ Fc, 0 ≤ l F x} ↔ ∀ F ∈ Fc, 0 < l F x := by
  obtain ⟨T0, hT0⟩ := h.nonempty
  constructor
  · rintro ⟨hx, h2⟩ F hF
    refine lt_of_le_of_ne (hx F hF) fun h0 => ?_
    obtain ⟨T, hT, i, hi, he⟩ := h.facet hF
    obtain ⟨p1, -⟩ := h.facet_fun hF hT hi he
    obtain ⟨t, t1, ht⟩ := h2 i (fun G hG => h.nonneg G hG T hT i hi)
    have := ht F hF
    rw [affine_line, ← h0, mul_zero, add_zero] at this
    have := mul_neg_of_neg_of_pos (show 1 - t < 0 by linarith) p1
    linarith
  · intro hx
    refine ⟨fun F hF => (hx F hF).le, fun y hy => ?_⟩
    obtain ⟨δ, d1, d2, d3⟩ := exists_small Fc (fun F => l F x) (fun F => 2 * l F x - l F y) hx
    refine ⟨1 + δ / 2, by linarith, fun F hF => ?_⟩
    have := d3 (δ / 2) (by linarith) (by linarith) F hF
    rw [affine_line]
    nlinarith

theorem relInterior_eq : relInterior K {x | ∀ F ∈ Fc, 0 ≤ l F x} = {x | (∀ F ∈ Fc, 0 ≤ l F x) ∧ ∀ F ∈ Fc, x ∉ convexHull K (F : Set E)} := by
  ext x
  rw [h.relInterior_iff]
  constructor
  · intro hx
    exact ⟨fun F hF => (hx F hF).le, fun F hF hm => (hx F hF).ne' (zero_simplex (h.zero F hF) hm)⟩
  · rintro ⟨h1, h2⟩ F hF
    refine lt_of_le_of_ne (h1 F hF) fun h0 => ?_
    obtain ⟨G, hG, -, hm⟩ := h.facet_cover hF h1 h0.symm
    exact h2 G hG hm

end IsHull
end

end Verif.Geometry
