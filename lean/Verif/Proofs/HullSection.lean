import Verif.Proofs.HullBoundary
import Mathlib.Analysis.Convex.Join
import Mathlib.Algebra.BigOperators.Field

/-! # Sections of convex sets given by points and edges -/

namespace Verif.Geometry

open Classical

section
variable {K E : Type} [Field K] [LinearOrder K] [IsStrictOrderedRing K] [AddCommGroup E] [Module K E]

/-- the points of `P` and of the edges that cross the hyperplane, on the hyperplane -/
def cutPoints (P : Set E) (Ed : Set (E × E)) (l : E →ᵃ[K] K) : Set E :=
  {y | l y = 0 ∧ (y ∈ P ∨ ∃ e ∈ Ed, l e.1 * l e.2 < 0 ∧ y ∈ segment K e.1 e.2)}

variable (K) in
/-- every section of the convex set `X` by a hyperplane is given by the points and the edges -/
structure Sec (X : Set E) (P : Set E) (Ed : Set (E × E)) : Prop where
  convex : Convex K X
  sub : P ⊆ X
  edges : ∀ e ∈ Ed, e.1 ∈ X ∧ e.2 ∈ X
  cut : ∀ l : E →ᵃ[K] K, ∀ x ∈ X, l x = 0 → x ∈ convexHull K (cutPoints P Ed l)

theorem cutPoints_mono {P P' : Set E} {Ed Ed' : Set (E × E)} (hP : P ⊆ P') (hE : Ed ⊆ Ed') (l : E →ᵃ[K] K) : cutPoints P Ed l ⊆ cutPoints P' Ed' l := by
  rintro y ⟨h1, h2 | ⟨e, h2, h3⟩⟩
  · exact ⟨h1, .inl (hP h2)⟩
  · exact ⟨h1, .inr ⟨e, hE h2, h3⟩⟩

variable {X P : Set E} {Ed : Set (E × E)}

theorem Sec.hull (h : Sec K X P Ed) : convexHull K P = X := by
  apply Set.Subset.antisymm (convexHull_min h.sub h.convex)
  intro x hx
  refine convexHull_mono ?_ (h.cut (AffineMap.const K E 0) x hx rfl)
  rintro y ⟨-, h1 | ⟨e, -, h1, -⟩⟩
  · exact h1
  · have : (0 : K) * 0 < 0 := h1
    rw [mul_zero] at this
    exact absurd this (lt_irrefl _)

theorem Sec.nil : Sec K (∅ : Set E) ∅ ∅ := ⟨convex_empty, by simp, by simp, by simp⟩

theorem Sec.point (x : E) : Sec K {x} {x} ∅ := by
  refine ⟨convex_singleton x, by simp, by simp, ?_⟩
  rintro l y rfl hl
  exact subset_convexHull _ _ ⟨hl, .inl rfl⟩

theorem segment_line {x y z : E} : z ∈ segment K x y ↔ ∃ t : K, 0 ≤ t ∧ t ≤ 1 ∧ z = AffineMap.lineMap x y t := by
  rw [segment_eq_image_lineMap]
  constructor
  · rintro ⟨t, ht, rfl⟩; exact ⟨t, ht.1, ht.2, rfl⟩
  · rintro ⟨t, h0, h1, rfl⟩; exact ⟨t, ⟨h0, h1⟩, rfl⟩

theorem Sec.edge (a b : E) : Sec K (segment K a b) {a, b} {(a, b)} := by
  refine ⟨convex_segment a b, ?_, ?_, ?_⟩
  · rintro y (rfl | rfl)
    · exact left_mem_segment K _ _
    · exact right_mem_segment K _ _
  · rintro e rfl
    exact ⟨left_mem_segment K _ _, right_mem_segment K _ _⟩
  · intro l x hx hl
    by_cases hc : l a * l b < 0
    · exact subset_convexHull _ _ ⟨hl, .inr ⟨(a, b), rfl, hc, hx⟩⟩
    · obtain ⟨t, t0, t1, rfl⟩ := segment_line.1 hx
      rw [affine_line] at hl
      by_cases ha : l a = 0
      · by_cases hb : l b = 0
        · have h1 : segment K a b ⊆ convexHull K (cutPoints {a, b} {(a, b)} l) := by
            apply (convex_convexHull K _).segment_subset
            · exact subset_convexHull _ _ ⟨ha, .inl (by simp)⟩
            · exact subset_convexHull _ _ ⟨hb, .inl (by simp)⟩
          exact h1 hx
        · rw [ha, mul_zero, zero_add] at hl
          have : t = 0 := by simpa [hb] using hl
          rw [this, AffineMap.lineMap_apply_zero]
          exact subset_convexHull _ _ ⟨ha, .inl (by simp)⟩
      · by_cases hb : l b = 0
        · rw [hb, mul_zero, add_zero] at hl
          have : t = 1 := by
            rcases mul_eq_zero.1 hl with h | h
            · linarith
            · exact absurd h ha
          rw [this, AffineMap.lineMap_apply_one]
          exact subset_convexHull _ _ ⟨hb, .inl (by simp)⟩
        · exfalso
          have hp : 0 < l a * l b := lt_of_le_of_ne (not_lt.1 hc) (mul_ne_zero ha hb).symm
          have h2 : (1 - t) * (l a * l a) + t * (l a * l b) = 0 := by
            have := congrArg (fun z => l a * z) hl
            simp only [mul_zero] at this
            rw [← this]; ring
          have h3 : 0 < l a * l a := mul_self_pos.2 ha
          rcases lt_or_eq_of_le t0 with h | h
          · have := mul_pos h hp
            have := mul_nonneg (sub_nonneg.2 t1) h3.le
            linarith
          · rw [← h] at h2
            linarith

/-- a point of a convex hull is in a convex set that contains the generators on one side, and the section -/
theorem clip_point {Y C : Set E} (hC : Convex K C) {A : E →ᵃ[K] K} {x : E} (hx : x ∈ convexHull K Y) (hA : 0 ≤ A x) (h1 : ∀ y ∈ Y, 0 ≤ A y → y ∈ C)
    (h2 : ∀ w ∈ convexHull K Y, A w = 0 → w ∈ C) : x ∈ C := by
  set Yp := {y ∈ Y | 0 ≤ A y} with hYp
  set Yn := {y ∈ Y | A y < 0} with hYn
  have hY : Y = Yp ∪ Yn := by
    ext y
    simp only [hYp, hYn, Set.mem_union, Set.mem_setOf_eq]
    constructor
    · intro hy
      rcases lt_or_ge (A y) 0 with h | h
      · exact .inr ⟨hy, h⟩
      · exact .inl ⟨hy, h⟩
    · rintro (h | h)
      · exact h.1
      · exact h.1
  have hp : convexHull K Yp ⊆ C := convexHull_min (fun y hy => h1 y hy.1 hy.2) hC
  have hneg : ∀ z ∈ convexHull K Yn, A z < 0 := by
    have hcv : Convex K {z | A z < 0} := by
      intro y hy z hz a b ha hb hab
      have h2 : a • y + b • z = AffineMap.lineMap y z b := by
        rw [AffineMap.lineMap_apply_module, ← hab]; simp
      rw [Set.mem_setOf_eq, h2, affine_line]
      have hb1 : b ≤ 1 := by linarith
      rw [Set.mem_setOf_eq] at hy hz
      rcases lt_or_eq_of_le hb with h | h
      · have := mul_neg_of_pos_of_neg h hz
        have := mul_nonpos_of_nonneg_of_nonpos (sub_nonneg.2 hb1) hy.le
        linarith
      · rw [← h]; linarith
    exact fun z hz => convexHull_min (fun y hy => hy.2) hcv hz
  rcases Yn.eq_empty_or_nonempty with hne | hne
  · rw [hY, hne, Set.union_empty] at hx
    exact hp hx
  rcases Yp.eq_empty_or_nonempty with hpe | hpe
  · rw [hY, hpe, Set.empty_union] at hx
    exact absurd hA (not_le.2 (hneg x hx))
  have hx' := hx
  rw [hY, convexHull_union hpe hne, mem_convexJoin] at hx'
  obtain ⟨y, hy, z, hz, hxs⟩ := hx'
  have hyY : y ∈ convexHull K Y := convexHull_mono (by rw [hY]; exact Set.subset_union_left) hy
  have hzY : z ∈ convexHull K Y := convexHull_mono (by rw [hY]; exact Set.subset_union_right) hz
  have hAz := hneg z hz
  have hAy : 0 ≤ A y := nonneg_conv hy (fun i hi => hi.2)
  obtain ⟨t, t0, t1, rfl⟩ := segment_line.1 hxs
  rw [affine_line] at hA
  have hD : 0 < A y - A z := by linarith
  have hts : t ≤ A y / (A y - A z) := by
    rw [le_div_iff₀ hD]; nlinarith
  rcases eq_or_lt_of_le hAy with h0 | h0
  · rw [← h0, zero_div] at hts
    have : t = 0 := le_antisymm hts t0
    rw [this, AffineMap.lineMap_apply_zero]
    exact hp hy
  · have hs0 : 0 < A y / (A y - A z) := div_pos h0 hD
    have hs1 : A y / (A y - A z) ≤ 1 := by rw [div_le_one hD]; linarith
    have hw : AffineMap.lineMap y z (A y / (A y - A z)) ∈ convexHull K Y :=
      (convex_convexHull K Y).segment_subset hyY hzY (segment_line.2 ⟨_, hs0.le, hs1, rfl⟩)
    have hw0 : A (AffineMap.lineMap y z (A y / (A y - A z))) = 0 := by
      rw [affine_line]; field_simp; ring
    have hwC := h2 _ hw hw0
    refine hC.segment_subset (hp hy) hwC (segment_line.2 ⟨t / (A y / (A y - A z)), div_nonneg t0 hs0.le, (div_le_one hs0).2 hts, ?_⟩)
    rw [AffineMap.lineMap_lineMap_right, div_mul_cancel₀ _ hs0.ne']

/-- cutting off one side -/
theorem Sec.clip (h : Sec K X P Ed) {A : E →ᵃ[K] K} {Pm P' : Set E} {Em Ed' : Set (E × E)} (hm : Sec K (X ∩ {x | A x = 0}) Pm Em)
    (hP1 : Pm ⊆ P') (hP2 : ∀ p ∈ P, 0 < A p → p ∈ P') (hP3 : P' ⊆ X ∩ {x | 0 ≤ A x}) (hE1 : Em ⊆ Ed')
    (hE2 : ∀ e ∈ Ed, 0 ≤ A e.1 → 0 ≤ A e.2 → ¬ (A e.1 = 0 ∧ A e.2 = 0) → e ∈ Ed')
    (hE3 : ∀ e ∈ Ed, 0 < A e.1 → A e.2 < 0 → ∃ m ∈ segment K e.1 e.2, A m = 0 ∧ ((e.1, m) ∈ Ed' ∨ (m, e.1) ∈ Ed'))
    (hE4 : ∀ e ∈ Ed, A e.1 < 0 → 0 < A e.2 → ∃ m ∈ segment K e.1 e.2, A m = 0 ∧ ((e.2, m) ∈ Ed' ∨ (m, e.2) ∈ Ed'))
    (hE5 : ∀ e ∈ Ed', (e.1 ∈ X ∧ 0 ≤ A e.1) ∧ (e.2 ∈ X ∧ 0 ≤ A e.2)) : Sec K (X ∩ {x | 0 ≤ A x}) P' Ed' := by
  have hconv : Convex K {x | 0 ≤ A x} := by
    intro y hy z hz a b ha hb hab
    have h2 : a • y + b • z = AffineMap.lineMap y z b := by
      rw [AffineMap.lineMap_apply_module, ← hab]; simp
    rw [Set.mem_setOf_eq, h2, affine_line]
    exact add_nonneg (mul_nonneg (by linarith) hy) (mul_nonneg hb hz)
  refine ⟨h.convex.inter hconv, hP3, hE5, ?_⟩
  rintro l x ⟨hx, hAx⟩ hl
  have hmid : ∀ w ∈ X, A w = 0 → l w = 0 → w ∈ convexHull K (cutPoints P' Ed' l) := fun w h1 h2 h3 =>
    convexHull_mono (cutPoints_mono hP1 hE1 l) (hm.cut l w ⟨h1, h2⟩ h3)
  have hcut : cutPoints P Ed l ⊆ X ∩ {x | l x = 0} := by
    rintro y ⟨h1, h2 | ⟨e, h2, -, h3⟩⟩
    · exact ⟨h.sub h2, h1⟩
    · exact ⟨h.convex.segment_subset (h.edges e h2).1 (h.edges e h2).2 h3, h1⟩
  have hcutconv : convexHull K (cutPoints P Ed l) ⊆ X ∩ {x | l x = 0} := by
    refine convexHull_min hcut (h.convex.inter ?_)
    intro y hy z hz a b ha hb hab
    have h2 : a • y + b • z = AffineMap.lineMap y z b := by
      rw [AffineMap.lineMap_apply_module, ← hab]; simp
    rw [Set.mem_setOf_eq] at hy hz ⊢
    rw [h2, affine_line, hy, hz]; simp
  -- a point of an edge that is cut
  have hedge : ∀ a b m y : E, l a ≠ 0 → y ∈ segment K a b → l y = 0 → m ∈ segment K a b → A m = 0 → 0 < A a → A b < 0 → 0 < A y →
      l a * l m < 0 ∧ y ∈ segment K a m := by
    intro a b m y hla hy hly hm' hAm hAa hAb hAy
    obtain ⟨t, t0, t1, rfl⟩ := segment_line.1 hy
    obtain ⟨s, s0, s1, rfl⟩ := segment_line.1 hm'
    rw [affine_line] at hly hAm hAy
    have hts : t < s := by
      by_contra hn
      push Not at hn
      nlinarith
    have hs : 0 < s := lt_of_le_of_lt t0 hts
    refine ⟨?_, segment_line.2 ⟨t / s, div_nonneg t0 hs.le, (div_le_one hs).2 hts.le, ?_⟩⟩
    · rw [affine_line]
      have ht : 0 < t := by
        rcases lt_or_eq_of_le t0 with h | h
        · exact h
        · rw [← h] at hly
          exact absurd (by linarith) hla
      have e1 : l b = - (1 - t) * l a / t := by
        rw [eq_div_iff ht.ne']; linarith
      have e2 : l a * ((1 - s) * l a + s * l b) = - ((s - t) / t * (l a * l a)) := by
        rw [e1]; field_simp; ring
      rw [e2]
      exact neg_neg_of_pos (mul_pos (div_pos (by linarith) ht) (mul_self_pos.2 hla))
    · rw [AffineMap.lineMap_lineMap_right, div_mul_cancel₀ _ hs.ne']
  refine clip_point (convex_convexHull K _) (h.cut l x hx hl) hAx ?_ ?_
  · intro y hy hAy
    have hyX := hcut hy
    rcases lt_or_eq_of_le hAy with hpos | hzero
    · rcases hy with ⟨hly, hy | ⟨e, he, hle, hys⟩⟩
      · exact subset_convexHull _ _ ⟨hly, .inl (hP2 y hy hpos)⟩
      · apply subset_convexHull
        have hl1 : l e.1 ≠ 0 := by rintro h0; rw [h0, zero_mul] at hle; exact lt_irrefl _ hle
        have hl2 : l e.2 ≠ 0 := by rintro h0; rw [h0, mul_zero] at hle; exact lt_irrefl _ hle
        have hAy' : ∃ t : K, 0 ≤ t ∧ t ≤ 1 ∧ 0 < (1 - t) * A e.1 + t * A e.2 := by
          obtain ⟨t, t0, t1, rfl⟩ := segment_line.1 hys
          rw [affine_line] at hpos
          exact ⟨t, t0, t1, hpos⟩
        obtain ⟨t, t0, t1, htp⟩ := hAy'
        rcases lt_or_ge (A e.1) 0 with ha | ha
        · have hb : 0 < A e.2 := by
            by_contra hn
            push Not at hn
            have := mul_nonpos_of_nonneg_of_nonpos (sub_nonneg.2 t1) ha.le
            have := mul_nonpos_of_nonneg_of_nonpos t0 hn
            linarith
          obtain ⟨m, m1, m2, m3⟩ := hE4 e he ha hb
          obtain ⟨q1, q2⟩ := hedge e.2 e.1 m y hl2 (by rw [segment_symm]; exact hys) hly (by rw [segment_symm]; exact m1) m2 hb ha hpos
          rcases m3 with m3 | m3
          · exact ⟨hly, .inr ⟨_, m3, q1, q2⟩⟩
          · exact ⟨hly, .inr ⟨_, m3, by rw [mul_comm]; exact q1, by rw [segment_symm]; exact q2⟩⟩
        · rcases lt_or_ge (A e.2) 0 with hb | hb
          · have ha' : 0 < A e.1 := by
              by_contra hn
              push Not at hn
              have := mul_nonpos_of_nonneg_of_nonpos (sub_nonneg.2 t1) hn
              have := mul_nonpos_of_nonneg_of_nonpos t0 hb.le
              linarith
            obtain ⟨m, m1, m2, m3⟩ := hE3 e he ha' hb
            obtain ⟨q1, q2⟩ := hedge e.1 e.2 m y hl1 hys hly m1 m2 ha' hb hpos
            rcases m3 with m3 | m3
            · exact ⟨hly, .inr ⟨_, m3, q1, q2⟩⟩
            · exact ⟨hly, .inr ⟨_, m3, by rw [mul_comm]; exact q1, by rw [segment_symm]; exact q2⟩⟩
          · refine ⟨hly, .inr ⟨e, hE2 e he ha hb ?_, hle, hys⟩⟩
            rintro ⟨h1, h2⟩
            rw [h1, h2] at htp
            simp at htp
    · exact hmid y hyX.1 hzero.symm hyX.2
  · intro w hw hAw
    exact hmid w (hcutconv hw).1 hAw (hcutconv hw).2

theorem Sec.image {E' : Type} [AddCommGroup E'] [Module K E'] (h : Sec K X P Ed) (f : E →ᵃ[K] E') :
    Sec K (f '' X) (f '' P) ((fun e : E × E => (f e.1, f e.2)) '' Ed) := by
  refine ⟨h.convex.affine_image f, Set.image_mono h.sub, ?_, ?_⟩
  · rintro _ ⟨e, he, rfl⟩
    exact ⟨⟨_, (h.edges e he).1, rfl⟩, ⟨_, (h.edges e he).2, rfl⟩⟩
  · rintro l _ ⟨x, hx, rfl⟩ hl
    have h1 := h.cut (l.comp f) x hx hl
    have h2 : f x ∈ f '' convexHull K (cutPoints P Ed (l.comp f)) := ⟨x, h1, rfl⟩
    rw [AffineMap.image_convexHull] at h2
    refine convexHull_mono ?_ h2
    rintro _ ⟨y, ⟨h3, h4 | ⟨e, h4, h5, h6⟩⟩, rfl⟩
    · exact ⟨h3, .inl ⟨y, h4, rfl⟩⟩
    · refine ⟨h3, .inr ⟨_, ⟨e, h4, rfl⟩, h5, ?_⟩⟩
      have := Set.mem_image_of_mem f h6
      rwa [image_segment] at this

/-- the section of the convex hull of finitely many points -/
theorem finite_section {F : Finset E} {l : E →ᵃ[K] K} {x : E} (hx : x ∈ convexHull K (F : Set E)) (hl : l x = 0) :
    x ∈ convexHull K {y | l y = 0 ∧ (y ∈ F ∨ ∃ a ∈ F, ∃ b ∈ F, l a * l b < 0 ∧ y ∈ segment K a b)} := by
  obtain ⟨w, w0, w1, w2⟩ := (Finset.mem_convexHull' (R := K)).1 hx
  set Q := {y | l y = 0 ∧ (y ∈ F ∨ ∃ a ∈ F, ∃ b ∈ F, l a * l b < 0 ∧ y ∈ segment K a b)} with hQ
  set Z := F.filter (fun a => l a = 0) with hZ
  set U := F.filter (fun a => 0 < l a) with hU
  set N := F.filter (fun a => l a < 0) with hN
  have hsplit : ∀ {M : Type} [AddCommMonoid M] (φ : E → M), ∑ a ∈ F, φ a = ∑ a ∈ Z, φ a + (∑ a ∈ U, φ a + ∑ a ∈ N, φ a) := by
    intro M _ φ
    rw [hZ, hU, hN, ← Finset.sum_filter_add_sum_filter_not F (fun a => l a = 0)]
    congr 1
    rw [← Finset.sum_filter_add_sum_filter_not (F.filter fun a => ¬ l a = 0) (fun a => 0 < l a), Finset.filter_filter, Finset.filter_filter]
    congr 1
    · apply Finset.sum_congr _ (fun _ _ => rfl)
      apply Finset.filter_congr
      intro a _
      constructor
      · exact fun hh => hh.2
      · exact fun hh => ⟨hh.ne', hh⟩
    · apply Finset.sum_congr _ (fun _ _ => rfl)
      apply Finset.filter_congr
      intro a _
      constructor
      · exact fun hh => lt_of_le_of_ne (not_lt.1 hh.2) hh.1
      · exact fun hh => ⟨hh.ne, not_lt.2 hh.le⟩
  have hl0 : ∑ a ∈ F, w a * l a = 0 := by rw [← affine_comb l F w w1, w2, hl]
  rw [hsplit] at hl0
  have hZ0 : ∑ a ∈ Z, w a * l a = 0 := Finset.sum_eq_zero fun a ha => by rw [(Finset.mem_filter.1 ha).2, mul_zero]
  rw [hZ0, zero_add] at hl0
  set M := ∑ a ∈ U, w a * l a with hM
  have hN0 : ∑ a ∈ N, w a * (- l a) = M := by
    rw [Finset.sum_congr rfl (fun a _ => mul_neg (w a) (l a)), Finset.sum_neg_distrib]; linarith
  have hwF : ∀ a ∈ F, 0 ≤ w a := w0
  have hUm : ∀ a ∈ U, a ∈ F ∧ 0 < l a := fun a ha => Finset.mem_filter.1 ha
  have hNm : ∀ a ∈ N, a ∈ F ∧ l a < 0 := fun a ha => Finset.mem_filter.1 ha
  have hZm : ∀ a ∈ Z, a ∈ F ∧ l a = 0 := fun a ha => Finset.mem_filter.1 ha
  have hM0 : 0 ≤ M := Finset.sum_nonneg fun a ha => mul_nonneg (hwF a (hUm a ha).1) (hUm a ha).2.le
  have hZQ : ∀ a ∈ Z, a ∈ convexHull K Q := fun a ha => subset_convexHull _ _ ⟨(hZm a ha).2, .inl (hZm a ha).1⟩
  rcases eq_or_lt_of_le hM0 with hz | hpos
  · -- only points on the hyperplane count
    have hUw : ∀ a ∈ U, w a = 0 := by
      intro a ha
      have := (Finset.sum_eq_zero_iff_of_nonneg (fun b hb => mul_nonneg (hwF b (hUm b hb).1) (hUm b hb).2.le)).1 hz.symm a ha
      rcases mul_eq_zero.1 this with h | h
      · exact h
      · exact absurd h (hUm a ha).2.ne'
    have hNw : ∀ a ∈ N, w a = 0 := by
      intro a ha
      rw [← hz] at hN0
      have := (Finset.sum_eq_zero_iff_of_nonneg (fun b hb => mul_nonneg (hwF b (hNm b hb).1) (neg_pos.2 (hNm b hb).2).le)).1 hN0 a ha
      rcases mul_eq_zero.1 this with h | h
      · exact h
      · exact absurd h (neg_pos.2 (hNm a ha).2).ne'
    rw [hsplit, Finset.sum_eq_zero hUw, Finset.sum_eq_zero hNw, add_zero, add_zero] at w1
    rw [hsplit, Finset.sum_eq_zero (s := U) (fun a ha => by rw [hUw a ha, zero_smul]), Finset.sum_eq_zero (s := N) (fun a ha => by rw [hNw a ha, zero_smul]), add_zero, add_zero] at w2
    rw [← w2]
    exact (convex_convexHull K Q).sum_mem (fun a ha => hwF a (hZm a ha).1) w1 hZQ
  · let cp : E × E → E := fun e => AffineMap.lineMap e.1 e.2 (l e.1 / (l e.1 - l e.2))
    let W : E × E → K := fun e => w e.1 * w e.2 * (l e.1 - l e.2) / M
    have hWc : ∀ e ∈ U ×ˢ N, W e • cp e = (w e.1 * (w e.2 * (- l e.2)) / M) • e.1 + (w e.2 * (w e.1 * l e.1) / M) • e.2 := by
      intro e he
      rw [Finset.mem_product] at he
      have h1 := (hUm _ he.1).2
      have h2 := (hNm _ he.2).2
      have hne : l e.1 - l e.2 ≠ 0 := by linarith
      simp only [W, cp]
      rw [AffineMap.lineMap_apply_module, smul_add, smul_smul, smul_smul]
      congr 2
      · field_simp; ring
      · field_simp
    have hWs : ∀ e ∈ U ×ˢ N, W e = (w e.1 * (w e.2 * (- l e.2)) / M) + (w e.2 * (w e.1 * l e.1) / M) := by
      intro e he
      simp only [W]
      rw [← add_div]; congr 1; ring
    have hs1 : ∀ a, ∑ b ∈ N, w a * (w b * (- l b)) / M = w a := by
      intro a
      rw [← Finset.sum_div, ← Finset.mul_sum, hN0, mul_div_cancel_right₀ _ hpos.ne']
    have hs2 : ∀ b, ∑ a ∈ U, w b * (w a * l a) / M = w b := by
      intro b
      rw [← Finset.sum_div, ← Finset.mul_sum, ← hM, mul_div_cancel_right₀ _ hpos.ne']
    have htot : ∑ e ∈ U ×ˢ N, W e = ∑ a ∈ U, w a + ∑ b ∈ N, w b := by
      rw [Finset.sum_congr rfl hWs, Finset.sum_add_distrib]
      congr 1
      · rw [Finset.sum_product]
        exact Finset.sum_congr rfl fun a _ => hs1 a
      · rw [Finset.sum_product_right]
        exact Finset.sum_congr rfl fun b _ => hs2 b
    have hcomb : ∑ e ∈ U ×ˢ N, W e • cp e = ∑ a ∈ U, w a • a + ∑ b ∈ N, w b • b := by
      rw [Finset.sum_congr rfl hWc, Finset.sum_add_distrib]
      congr 1
      · rw [Finset.sum_product]
        refine Finset.sum_congr rfl fun a _ => ?_
        rw [← Finset.sum_smul, hs1]
      · rw [Finset.sum_product_right]
        refine Finset.sum_congr rfl fun b _ => ?_
        rw [← Finset.sum_smul, hs2]
    have hcQ : ∀ e ∈ U ×ˢ N, cp e ∈ convexHull K Q := by
      intro e he
      rw [Finset.mem_product] at he
      have h1 := hUm _ he.1
      have h2 := hNm _ he.2
      have hd : 0 < l e.1 - l e.2 := by linarith
      refine subset_convexHull _ _ ⟨?_, .inr ⟨e.1, h1.1, e.2, h2.1, mul_neg_of_pos_of_neg h1.2 h2.2, segment_line.2 ⟨_, (div_pos h1.2 hd).le, ?_, rfl⟩⟩⟩
      · simp only [cp]; rw [affine_line]; field_simp; ring
      · rw [div_le_one hd]; linarith
    have hWn : ∀ e ∈ U ×ˢ N, 0 ≤ W e := by
      intro e he
      rw [Finset.mem_product] at he
      have h1 := hUm _ he.1
      have h2 := hNm _ he.2
      exact div_nonneg (mul_nonneg (mul_nonneg (hwF _ h1.1) (hwF _ h2.1)) (by linarith)) hM0
    rw [hsplit] at w1 w2
    let z : E ⊕ (E × E) → E := Sum.elim id cp
    let wt : E ⊕ (E × E) → K := Sum.elim w W
    have r1 : ∑ i ∈ Z.disjSum (U ×ˢ N), wt i = 1 := by
      rw [Finset.sum_disjSum]
      simp only [wt, Sum.elim_inl, Sum.elim_inr]
      rw [htot, w1]
    have r2 : ∑ i ∈ Z.disjSum (U ×ˢ N), wt i • z i = x := by
      rw [Finset.sum_disjSum]
      simp only [wt, z, Sum.elim_inl, Sum.elim_inr, id]
      rw [hcomb, w2]
    rw [← r2]
    refine (convex_convexHull K Q).sum_mem ?_ r1 ?_
    · rintro (a | e) he
      · exact hwF a (hZm a (by simpa using he)).1
      · exact hWn e (by simpa using he)
    · rintro (a | e) he
      · exact hZQ a (by simpa using he)
      · exact hcQ e (by simpa using he)

end

section
variable {K E : Type} [Field K] [LinearOrder K] [IsStrictOrderedRing K] [AddCommGroup E] [Module K E] [FiniteDimensional K E]
variable {I Fc : Finset (Finset E)} {l : Finset E → E →ᵃ[K] K} (h : IsHull I Fc l)
include h

/-- the vertices and the edges of the facets of a hull of dimension at least two -/
theorem IsHull.sec (hn : 2 ≤ Module.finrank K E) {Ed : Set (E × E)} (hE1 : ∀ F ∈ Fc, ∀ a ∈ F, ∀ b ∈ F, a ≠ b → (a, b) ∈ Ed ∨ (b, a) ∈ Ed)
    (hE2 : ∀ e ∈ Ed, ∃ F ∈ Fc, e.1 ∈ F ∧ e.2 ∈ F) : Sec K {x | ∀ F ∈ Fc, 0 ≤ l F x} {y | ∃ F ∈ Fc, y ∈ F} Ed := by
  have hcv : Convex K {x | ∀ F ∈ Fc, 0 ≤ l F x} := by
    intro y hy z hz a b ha hb hab F hF
    have h2 : a • y + b • z = AffineMap.lineMap y z b := by
      rw [AffineMap.lineMap_apply_module, ← hab]; simp
    rw [h2, affine_line]
    exact add_nonneg (mul_nonneg (by linarith) (hy F hF)) (mul_nonneg hb (hz F hF))
  have hsub : ∀ F ∈ Fc, ∀ y ∈ F, ∀ G ∈ Fc, 0 ≤ l G y := fun F hF y hy G hG => h.nonneg_facet hF hG hy
  refine ⟨hcv, ?_, ?_, ?_⟩
  · rintro y ⟨F, hF, hy⟩ G hG
    exact hsub F hF y hy G hG
  · intro e he
    obtain ⟨F, hF, h1, h2⟩ := hE2 e he
    exact ⟨hsub F hF _ h1, hsub F hF _ h2⟩
  · intro m x hx hm
    -- a direction in the hyperplane
    obtain ⟨u, hu0, hu⟩ : ∃ u : E, u ≠ 0 ∧ m.linear u = 0 := by
      have h1 := LinearMap.finrank_range_add_finrank_ker m.linear
      have h2 : Module.finrank K (LinearMap.range m.linear) ≤ 1 := by
        have := Submodule.finrank_le (LinearMap.range m.linear)
        rwa [Module.finrank_self] at this
      have h3 : 0 < Module.finrank K (LinearMap.ker m.linear) := by omega
      haveI := Module.nontrivial_of_finrank_pos h3
      obtain ⟨⟨u, hu⟩, hne⟩ := exists_ne (0 : LinearMap.ker m.linear)
      exact ⟨u, fun e => hne (Subtype.ext e), hu⟩
    have hmu : ∀ (s : K), m (x + s • u) = 0 := by
      intro s
      have := m.map_vadd x (s • u)
      rw [map_smul, hu, smul_zero, hm] at this
      rw [add_comm]
      simpa using this
    have hend : ∀ s : K, (∃ F ∈ Fc, x + s • u ∈ convexHull K (F : Set E)) →
        x + s • u ∈ convexHull K (cutPoints {y | ∃ F ∈ Fc, y ∈ F} Ed m) := by
      rintro s ⟨F, hF, hs⟩
      refine convexHull_mono ?_ (finite_section hs (hmu s))
      rintro y ⟨h1, h2 | ⟨a, ha, b, hb, hab, hy⟩⟩
      · exact ⟨h1, .inl ⟨F, hF, h2⟩⟩
      · have hne : a ≠ b := by rintro rfl; exact absurd hab (not_lt.2 (mul_self_nonneg _))
        rcases hE1 F hF a ha b hb hne with he | he
        · exact ⟨h1, .inr ⟨_, he, hab, hy⟩⟩
        · exact ⟨h1, .inr ⟨_, he, by rw [mul_comm]; exact hab, by rw [segment_symm]; exact hy⟩⟩
    have key : ∀ d : E, d ≠ 0 → ∃ t : K, 0 ≤ t ∧ ∃ F ∈ Fc, x + t • d ∈ convexHull K (F : Set E) := by
      intro d hd
      obtain ⟨t, t1, -, F, hF, h2, -⟩ := h.reach (u := x - d) (x := x) (by simpa using hd) hx
      refine ⟨t - 1, by linarith, F, hF, ?_⟩
      have : AffineMap.lineMap (x - d) x t = x + (t - 1) • d := by
        rw [AffineMap.lineMap_apply_module]; module
      rw [← this]; exact h2
    obtain ⟨t1, p1, F1⟩ := key u hu0
    obtain ⟨t2, p2, F2⟩ := key (-u) (neg_ne_zero.2 hu0)
    have q1 := hend t1 F1
    have q2 := hend (-t2) (by simpa using F2)
    rcases eq_or_lt_of_le p1 with h0 | h0
    · rw [← h0] at q1; simpa using q1
    · have hpos : 0 < t1 + t2 := by linarith
      refine (convex_convexHull K _).segment_subset q1 q2 (segment_line.2 ⟨t1 / (t1 + t2), by positivity, by rw [div_le_one hpos]; linarith, ?_⟩)
      rw [AffineMap.lineMap_apply_module]
      have e : x = (1 - t1 / (t1 + t2)) • (x + t1 • u) + (t1 / (t1 + t2)) • (x + -t2 • u) := by
        have e2 : (1 - t1 / (t1 + t2)) * t1 - t1 / (t1 + t2) * t2 = 0 := by field_simp; ring
        have e3 : (1 - t1 / (t1 + t2)) • (x + t1 • u) + (t1 / (t1 + t2)) • (x + -t2 • u) = x + ((1 - t1 / (t1 + t2)) * t1 - t1 / (t1 + t2) * t2) • u := by module
        rw [e3, e2, zero_smul, add_zero]
      exact e

end

end Verif.Geometry
