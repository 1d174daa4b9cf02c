import Verif.Proofs.HullRaise
import Mathlib.Analysis.Convex.Join

/-! # The triangulation of a convex hull is proper: two simplices meet in a common face -/

namespace Verif.Geometry

open Classical

section
variable {K E E' : Type} [Field K] [LinearOrder K] [IsStrictOrderedRing K] [AddCommGroup E] [Module K E]

variable (K) in
/-- any two simplices meet in the simplex of their common vertices -/
def Proper (I : Finset (Finset E)) : Prop :=
  ∀ T ∈ I, ∀ T' ∈ I, ∀ x, x ∈ convexHull K (T : Set E) → x ∈ convexHull K (T' : Set E) → x ∈ convexHull K ((T ∩ T' : Finset E) : Set E)

theorem Proper.single (T : Finset E) : Proper K {T} := by
  intro T1 h1 T2 h2 x hx _
  rw [Finset.mem_singleton.1 h1] at hx ⊢
  rw [Finset.mem_singleton.1 h2, Finset.inter_self]
  exact hx

theorem face_meet {T A B : Finset E} (hT : AffineIndependent K (fun x : T => (x : E))) (hA : A ⊆ T) (hB : B ⊆ T) {x : E}
    (h1 : x ∈ convexHull K (A : Set E)) (h2 : x ∈ convexHull K (B : Set E)) : x ∈ convexHull K ((A ∩ B : Finset E) : Set E) := by
  have := AffineIndependent.convexHull_inter (R := K) hT hA hB
  rw [← Finset.coe_inter] at this
  rw [this]
  exact ⟨h1, h2⟩

/-- faces of the simplices meet in common faces -/
theorem Proper.faces {I : Finset (Finset E)} (hp : Proper K I) (hi : ∀ T ∈ I, AffineIndependent K (fun x : T => (x : E))) {T T' A B : Finset E} (hT : T ∈ I) (hT' : T' ∈ I)
    (hA : A ⊆ T) (hB : B ⊆ T') {x : E} (h1 : x ∈ convexHull K (A : Set E)) (h2 : x ∈ convexHull K (B : Set E)) :
    x ∈ convexHull K ((A ∩ B : Finset E) : Set E) := by
  have h3 := hp T hT T' hT' x (convexHull_mono (Finset.coe_subset.2 hA) h1) (convexHull_mono (Finset.coe_subset.2 hB) h2)
  have h4 := face_meet (hi T hT) hA Finset.inter_subset_left h1 h3
  have h5 := face_meet (hi T' hT') hB Finset.inter_subset_right h2 h3
  have h6 := face_meet (hi T' hT') (A := A ∩ (T ∩ T')) (B := B ∩ (T ∩ T')) (fun y hy => by simp at hy; exact hy.2.2) (fun y hy => by simp at hy; exact hy.2.2) h4 h5
  refine convexHull_mono (Finset.coe_subset.2 ?_) h6
  intro y hy
  simp only [Finset.mem_inter] at hy ⊢
  exact ⟨hy.1.1, hy.2.1⟩

/-- the points of a cone -/
theorem cone_point {F : Finset E} {p x : E} (hx : x ∈ convexHull K ((insert p F : Finset E) : Set E)) :
    x = p ∨ ∃ z ∈ convexHull K (F : Set E), ∃ s : K, 0 ≤ s ∧ s < 1 ∧ x = AffineMap.lineMap z p s := by
  rcases F.eq_empty_or_nonempty with rfl | hne
  · left
    simpa using hx
  · rw [Finset.coe_insert, convexHull_insert (Finset.coe_nonempty.2 hne), convexJoin_singleton_left] at hx
    simp only [Set.mem_iUnion] at hx
    obtain ⟨z, hz, hx⟩ := hx
    rw [segment_symm, segment_eq_image_lineMap] at hx
    obtain ⟨s, ⟨s0, s1⟩, rfl⟩ := hx
    rcases s1.lt_or_eq with s1 | rfl
    · exact .inr ⟨z, hz, s, s0, s1, rfl⟩
    · left; simp

theorem cone_mem {F : Finset E} {p z : E} {s : K} (hz : z ∈ convexHull K (F : Set E)) (s0 : 0 ≤ s) (s1 : s ≤ 1) :
    AffineMap.lineMap z p s ∈ convexHull K ((insert p F : Finset E) : Set E) := by
  refine (convex_convexHull K _).segment_subset (convexHull_mono (Finset.coe_subset.2 (Finset.subset_insert p F)) hz)
    (subset_convexHull K _ (Finset.mem_coe.2 (Finset.mem_insert_self p F))) ?_
  rw [segment_eq_image_lineMap]
  exact ⟨s, ⟨s0, s1⟩, rfl⟩

theorem nonneg_simplex {T : Finset E} {m : E →ᵃ[K] K} (hm : ∀ y ∈ T, 0 ≤ m y) {x : E} (hx : x ∈ convexHull K (T : Set E)) : 0 ≤ m x := by
  have hc : Convex K {x | 0 ≤ m x} := by
    intro y hy z hz a b ha hb hab
    have h2 : a • y + b • z = AffineMap.lineMap y z b := by
      rw [AffineMap.lineMap_apply_module, ← hab]; simp
    rw [h2, Set.mem_setOf_eq, affine_line]
    exact add_nonneg (mul_nonneg (by linarith) hy) (mul_nonneg hb hz)
  exact convexHull_min (fun y hy => hm y hy) hc hx

theorem zero_simplex {T : Finset E} {m : E →ᵃ[K] K} (hm : ∀ y ∈ T, m y = 0) {x : E} (hx : x ∈ convexHull K (T : Set E)) : m x = 0 := by
  apply le_antisymm
  · have := nonneg_simplex (m := -m) (fun y hy => by rw [show (-m) y = - m y from rfl, hm y hy, neg_zero]) hx
    rw [show (-m) x = - m x from rfl] at this
    linarith
  · exact nonneg_simplex (fun y hy => (hm y hy).ge) hx

theorem line_left_inj {z z' p : E} {s : K} (hs : s < 1) (e : AffineMap.lineMap z p s = AffineMap.lineMap z' p s) : z = z' := by
  simp only [AffineMap.lineMap_apply_module, add_left_inj] at e
  exact smul_right_injective E (show (1 - s) ≠ 0 by linarith) e

variable [FiniteDimensional K E]

namespace IsHull
variable {I Fc : Finset (Finset E)} {l : Finset E → E →ᵃ[K] K} (h : IsHull I Fc l)
include h

theorem extend_proper (hp : Proper K I) (p : E) : Proper K (I ∪ (Fc.filter fun F => l F p < 0).image (insert p)) := by
  have hi : ∀ T ∈ I, AffineIndependent K (fun x : T => (x : E)) := fun T hT => (h.full T hT).indep
  have hmix : ∀ F ∈ Fc, l F p < 0 → ∀ T ∈ I, ∀ x, x ∈ convexHull K ((insert p F : Finset E) : Set E) → x ∈ convexHull K (T : Set E) →
      x ∈ convexHull K ((insert p F ∩ T : Finset E) : Set E) := by
    intro F hF hv T hT x hx hxT
    have hx0 := nonneg_simplex (m := l F) (h.nonneg F hF T hT) hxT
    rcases cone_point hx with rfl | ⟨z, hz, s, s0, s1, rfl⟩
    · exact absurd hv (not_lt.2 hx0)
    · have hz0 := zero_simplex (m := l F) (h.zero F hF) hz
      rw [affine_line, hz0, mul_zero, zero_add] at hx0
      have : s = 0 := by
        by_contra hne
        have : 0 < s := lt_of_le_of_ne s0 (Ne.symm hne)
        have := mul_neg_of_pos_of_neg this hv
        linarith
      subst this
      rw [AffineMap.lineMap_apply_zero] at hxT ⊢
      obtain ⟨T', hT', i, hi', he⟩ := h.facet hF
      have := hp.faces hi hT' hT (A := F) (B := T) (he ▸ Finset.erase_subset i T') (Finset.Subset.refl _) hz hxT
      exact convexHull_mono (Finset.coe_subset.2 (Finset.inter_subset_inter_right (Finset.subset_insert p F))) this
  intro T hT T' hT' x hx hx'
  rcases Finset.mem_union.1 hT with hT | hT <;> rcases Finset.mem_union.1 hT' with hT' | hT'
  · exact hp T hT T' hT' x hx hx'
  · obtain ⟨F, hF, rfl⟩ := Finset.mem_image.1 hT'
    rw [Finset.mem_filter] at hF
    rw [Finset.inter_comm]
    exact hmix F hF.1 hF.2 T hT x hx' hx
  · obtain ⟨F, hF, rfl⟩ := Finset.mem_image.1 hT
    rw [Finset.mem_filter] at hF
    exact hmix F hF.1 hF.2 T' hT' x hx hx'
  · obtain ⟨F, hF, rfl⟩ := Finset.mem_image.1 hT
    obtain ⟨F', hF', rfl⟩ := Finset.mem_image.1 hT'
    rw [Finset.mem_filter] at hF hF'
    obtain ⟨hF, hv⟩ := hF
    obtain ⟨hF', hv'⟩ := hF'
    rw [← Finset.insert_inter_distrib]
    have hpm : p ∈ convexHull K ((insert p (F ∩ F') : Finset E) : Set E) := subset_convexHull K _ (Finset.mem_coe.2 (Finset.mem_insert_self p _))
    rcases cone_point hx with rfl | ⟨z, hz, s, s0, s1, hxz⟩
    · exact hpm
    rcases cone_point hx' with rfl | ⟨z', hz', s', s0', s1', hxz'⟩
    · exact hpm
    have hle : ∀ {F F' : Finset E} {s s' : K} {z z' : E}, F ∈ Fc → F' ∈ Fc → l F' p < 0 → z ∈ convexHull K (F : Set E) → z' ∈ convexHull K (F' : Set E) → s < 1 →
        x = AffineMap.lineMap z p s → x = AffineMap.lineMap z' p s' → s' ≤ s := by
      intro F F' s s' z z' hF hF' hv' hz hz' s1 e e'
      have a := nonneg_simplex (m := l F') (fun y hy => h.nonneg_facet hF hF' hy) hz
      have b := zero_simplex (m := l F') (h.zero F' hF') hz'
      have e1 := congrArg (l F') e
      have e2 := congrArg (l F') e'
      rw [affine_line] at e1 e2
      rw [b, mul_zero, zero_add] at e2
      by_contra hn
      rw [not_le] at hn
      have c := mul_lt_mul_of_neg_right hn hv'
      have d := mul_nonneg (show 0 ≤ 1 - s by linarith) a
      linarith
    have hss : s = s' := le_antisymm (hle hF' hF hv hz' hz s1' hxz' hxz) (hle hF hF' hv' hz hz' s1 hxz hxz')
    subst hss
    have hzz : z = z' := line_left_inj s1 (hxz.symm.trans hxz')
    subst hzz
    obtain ⟨T, hT, i, hi', he⟩ := h.facet hF
    obtain ⟨T', hT', i', hi'', he'⟩ := h.facet hF'
    have hm := hp.faces hi hT hT' (A := F) (B := F') (he ▸ Finset.erase_subset i T) (he' ▸ Finset.erase_subset i' T') hz hz'
    rw [hxz]
    exact cone_mem hm s0 s1.le

theorem raise_proper [AddCommGroup E'] [Module K E'] [FiniteDimensional K E'] (hp : Proper K I) {f : E →ᵃ[K] E'} (hf : Function.Injective f) {p : E'} {m : E' →ᵃ[K] K}
    (hm : ∀ x, m (f x) = 0) (hmp : 0 < m p) : Proper K (I.image fun T => insert p (T.image f)) := by
  intro S hS S' hS' x hx hx'
  obtain ⟨T, hT, rfl⟩ := Finset.mem_image.1 hS
  obtain ⟨T', hT', rfl⟩ := Finset.mem_image.1 hS'
  rw [← Finset.insert_inter_distrib, ← Finset.image_inter _ _ hf]
  have himg : ∀ (U : Finset E) z, z ∈ convexHull K ((U.image f : Finset E') : Set E') ↔ ∃ y ∈ convexHull K (U : Set E), f y = z := by
    intro U z
    rw [Finset.coe_image, ← AffineMap.image_convexHull]; rfl
  have hpm : p ∈ convexHull K ((insert p ((T ∩ T').image f) : Finset E') : Set E') := subset_convexHull K _ (Finset.mem_coe.2 (Finset.mem_insert_self p _))
  rcases cone_point hx with rfl | ⟨z, hz, s, s0, s1, hxz⟩
  · exact hpm
  rcases cone_point hx' with rfl | ⟨z', hz', s', s0', s1', hxz'⟩
  · exact hpm
  obtain ⟨y, hy, rfl⟩ := (himg _ _).1 hz
  obtain ⟨y', hy', rfl⟩ := (himg _ _).1 hz'
  have e1 := congrArg m hxz
  have e2 := congrArg m hxz'
  rw [affine_line, hm, mul_zero, zero_add] at e1 e2
  have hss : s = s' := mul_right_cancel₀ hmp.ne' (e1.symm.trans e2)
  subst hss
  have hyy : y = y' := hf (line_left_inj s1 (hxz.symm.trans hxz'))
  subst hyy
  rw [hxz]
  exact cone_mem ((himg _ _).2 ⟨y, hp T hT T' hT' y hy hy', rfl⟩) s0 s1.le

end IsHull
end

end Verif.Geometry
