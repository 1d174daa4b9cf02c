import Verif.Proofs.HullExtend

/-! # The facets cover the boundary of a triangulated convex hull -/

namespace Verif.Geometry

open Classical

section
variable {K E : Type} [Field K] [LinearOrder K] [IsStrictOrderedRing K] [AddCommGroup E] [Module K E] [FiniteDimensional K E]

omit [LinearOrder K] [IsStrictOrderedRing K] in
/-- the span of a ridge and a point is not everything -/
theorem ridge_span_ne_top {T : Finset E} (h : Full K T) {i j : E} (hi : i ∈ T) (hj : j ∈ T) (hij : i ≠ j) (b : E) :
    affineSpan K (insert b (((T.erase i).erase j : Finset E) : Set E)) ≠ ⊤ := by
  intro htop
  have hc : ((T.erase i).erase j).card + 2 = Module.finrank K E + 1 := by
    rw [Finset.card_erase_of_mem (Finset.mem_erase.2 ⟨Ne.symm hij, hj⟩), Finset.card_erase_of_mem hi, h.card]
    have : 1 < T.card := Finset.one_lt_card.2 ⟨i, hi, j, hj, hij⟩
    rw [h.card] at this
    omega
  have h2 : Module.finrank K (vectorSpan K ((insert b ((T.erase i).erase j) : Finset E) : Set E)) + 1 ≤ (insert b ((T.erase i).erase j)).card := by
    have hne : (insert b ((T.erase i).erase j) : Finset E).Nonempty := Finset.insert_nonempty _ _
    have := finrank_vectorSpan_image_finset_le K (fun k : E => k) (insert b ((T.erase i).erase j)) (n := (insert b ((T.erase i).erase j)).card - 1) (by
      have := hne.card_pos; omega)
    rw [Finset.image_id'] at this
    have h3 := hne.card_pos
    omega
  have h3 : vectorSpan K ((insert b ((T.erase i).erase j) : Finset E) : Set E) = ⊤ := by
    rw [← direction_affineSpan, Finset.coe_insert, htop, AffineSubspace.direction_top]
  rw [h3, finrank_top] at h2
  have h4 := Finset.card_insert_le b ((T.erase i).erase j)
  omega

theorem mem_conv_face {T : Finset E} (h : Full K T) {a x : E} (ha : a ∈ T) (hx : x ∈ convexHull K (T : Set E)) (h0 : crd K T a x = 0) :
    x ∈ convexHull K ((T.erase a : Finset E) : Set E) := by
  rw [mem_conv_iff h] at hx
  rw [Finset.mem_convexHull']
  have e1 := crd_sum h x
  have e2 := crd_comb h x
  rw [← Finset.add_sum_erase T _ ha, h0, zero_add] at e1
  rw [← Finset.add_sum_erase T _ ha, h0, zero_smul, zero_add] at e2
  exact ⟨fun i => crd K T i x, fun i hi => hx i (Finset.mem_of_mem_erase hi), e1, e2⟩

/-- a point with two coordinates zero is in the span of a ridge -/
theorem mem_ridge_span {T : Finset E} (h : Full K T) {i j x : E} (hi : i ∈ T) (hj : j ∈ T) (hij : i ≠ j) (h0 : crd K T i x = 0)
    (h1 : crd K T j x = 0) : x ∈ affineSpan K (((T.erase i).erase j : Finset E) : Set E) := by
  have hj' : j ∈ T.erase i := Finset.mem_erase.2 ⟨Ne.symm hij, hj⟩
  have hw := crd_sum h x
  have hc := crd_comb h x
  rw [← Finset.add_sum_erase T _ hi, h0, ← Finset.add_sum_erase _ _ hj', h1, zero_add, zero_add] at hw
  rw [← Finset.add_sum_erase T _ hi, h0, ← Finset.add_sum_erase _ _ hj', h1, zero_smul, zero_smul, zero_add, zero_add] at hc
  have := comb_mem_span hw
  rwa [hc] at this

namespace IsHull
variable {I Fc : Finset (Finset E)} {l : Finset E → E →ᵃ[K] K} (h : IsHull I Fc l)
include h

/-- a point of the hull in the hyperplane of a facet is in a facet in this hyperplane -/
theorem facet_cover {F : Finset E} (hF : F ∈ Fc) {x : E} (hx : ∀ G ∈ Fc, 0 ≤ l G x) (hxF : l F x = 0) :
    ∃ G ∈ Fc, (∀ y ∈ G, l F y = 0) ∧ x ∈ convexHull K (G : Set E) := by
  obtain ⟨T0, hT0, i, hi, he⟩ := h.facet hF
  have f0 := h.full T0 hT0
  obtain ⟨b, hb⟩ := f0.exists_inside
  by_cases hFe : F = ∅
  · -- dimension 0
    exfalso
    obtain ⟨p0, k0⟩ := h.facet_fun hF hT0 hi he
    have e1 : T0 = {i} := by
      have := Finset.insert_erase hi
      rw [he, hFe] at this
      exact this.symm
    have e2 := crd_sum f0 x
    rw [e1, Finset.sum_singleton] at e2
    rw [k0 x, e1, e2, one_mul] at hxF
    exact p0.ne' hxF
  let idx : Finset (Finset E × E × E) := I.biUnion fun T => (T ×ˢ T).image fun p => (T, p.1, p.2)
  have hidx : ∀ p, p ∈ idx ↔ p.1 ∈ I ∧ p.2.1 ∈ p.1 ∧ p.2.2 ∈ p.1 := by
    rintro ⟨T, i, j⟩
    simp only [idx, Finset.mem_biUnion, Finset.mem_image, Finset.mem_product, Prod.mk.injEq, Prod.exists]
    constructor
    · rintro ⟨T, hT, i, j, ⟨hi, hj⟩, rfl, rfl, rfl⟩; exact ⟨hT, hi, hj⟩
    · rintro ⟨hT, hi, hj⟩; exact ⟨T, hT, i, j, ⟨hi, hj⟩, rfl, rfl, rfl⟩
  obtain ⟨g0, hg1, hg2⟩ := avoid (idx.filter fun p => p.2.1 ≠ p.2.2)
    (fun p => affineSpan K (insert i (((p.1.erase p.2.1).erase p.2.2 : Finset E) : Set E))) (by
      rintro ⟨T, a, b⟩ hp
      rw [Finset.mem_filter, hidx] at hp
      exact ridge_span_ne_top (h.full T hp.1.1) hp.1.2.1 hp.1.2.2 hp.2 i) b T0 (fun j => crd K T0 j) (fun j hj => hb j hj)
  -- project to the hyperplane
  set s := crd K T0 i g0 with hs
  have hs1 : s < 1 := by
    have := crd_sum f0 g0
    rw [← Finset.add_sum_erase T0 _ hi, he] at this
    have h2 : 0 < ∑ j ∈ F, crd K T0 j g0 := Finset.sum_pos (fun j hj => hg2 j (Finset.mem_of_mem_erase (he.symm ▸ hj))) (Finset.nonempty_iff_ne_empty.2 hFe)
    linarith
  have hs2 : (0 : K) < 1 - s := by linarith
  have hs2' : (1 : K) - s ≠ 0 := hs2.ne'
  let g := AffineMap.lineMap (k := K) i g0 (1 - s)⁻¹
  have hg0 : g0 = AffineMap.lineMap i g (1 - s) := by
    simp only [g, AffineMap.lineMap_apply_module]
    rw [smul_add, smul_smul, smul_smul, mul_inv_cancel₀ hs2', one_smul, ← add_assoc, ← add_smul]
    have : 1 - (1 - s) + (1 - s) * (1 - (1 - s)⁻¹) = 0 := by field_simp; ring
    rw [this, zero_smul, zero_add]
  have hgi : crd K T0 i g = 0 := by
    simp only [g]
    rw [affine_line, crd_self f0 hi, ← hs]
    field_simp
    ring
  have hgj : ∀ j ∈ T0, 0 ≤ crd K T0 j g := by
    intro j hj
    by_cases hji : j = i
    · rw [hji, hgi]
    · simp only [g]
      rw [affine_line, crd_ne f0 hj hi hji, mul_zero, zero_add]
      exact mul_nonneg (inv_pos.2 hs2).le (hg2 j hj).le
  have hgH : ∀ G ∈ Fc, 0 ≤ l G g := fun G hG => by
    rw [affine_eq f0 (l G) g]
    exact Finset.sum_nonneg fun j hj => mul_nonneg (hgj j hj) (h.nonneg G hG T0 hT0 j hj)
  have hgF : l F g = 0 := by rw [(h.facet_fun hF hT0 hi he).2 g, hgi, zero_mul]
  have hgA : ∀ p ∈ (idx.filter fun p => p.2.1 ≠ p.2.2), g ∉ affineSpan K ((((p.1.erase p.2.1).erase p.2.2 : Finset E) : Set E)) := by
    intro p hp hm
    apply hg1 p hp
    have h1 := affineSpan_mono K (Set.subset_insert i _) hm
    have h2 : i ∈ affineSpan K (insert i (((p.1.erase p.2.1).erase p.2.2 : Finset E) : Set E)) := subset_affineSpan K _ (Set.mem_insert _ _)
    rw [hg0]
    exact AffineMap.lineMap_mem _ h2 h1
  -- near `x`
  have hneg : ∀ T ∈ I, ∃ i ∈ T, x ∉ convexHull K (T : Set E) → crd K T i x < 0 := by
    intro T hT
    by_cases hh : x ∈ convexHull K (T : Set E)
    · have : T.Nonempty := Finset.card_pos.1 (by rw [(h.full T hT).card]; omega)
      exact ⟨this.choose, this.choose_spec, fun hn => absurd hh hn⟩
    · have h1 := hh
      rw [mem_conv_iff (h.full T hT)] at h1
      push Not at h1
      obtain ⟨i, hi, h2⟩ := h1
      exact ⟨i, hi, fun _ => h2⟩
  choose! k hk hkneg using hneg
  obtain ⟨δ, d1, d2, d3⟩ := exists_small (I.filter fun T : Finset E => x ∉ convexHull K (T : Set E)) (fun T => -crd K T (k T) x)
    (fun T => -crd K T (k T) g) (fun T hT => by
      rw [Finset.mem_filter] at hT
      have := hkneg T hT.1 hT.2; linarith)
  have hfin : (⋃ p ∈ (idx.filter fun p => p.2.1 ≠ p.2.2),
      {t : K | AffineMap.lineMap x g t ∈ affineSpan K (((p.1.erase p.2.1).erase p.2.2 : Finset E) : Set E)}).Finite :=
    (Finset.finite_toSet _).biUnion fun p hp => line_bad (hgA p hp)
  obtain ⟨ε, e1, e2, e3⟩ := small_avoid d1 hfin
  set y := AffineMap.lineMap x g ε with hy
  obtain ⟨T, hT, hmem⟩ := h.complete (x := y) (by
    intro G hG
    rw [hy, affine_line]
    exact add_nonneg (mul_nonneg (by linarith) (hx G hG)) (mul_nonneg e1.le (hgH G hG)))
  have ft := h.full T hT
  have hxT : x ∈ convexHull K (T : Set E) := by
    by_contra hn
    have h2 := d3 ε e1 e2 T (Finset.mem_filter.2 ⟨hT, hn⟩)
    rw [mem_conv_iff ft] at hmem
    have h1 := hmem (k T) (hk T hT)
    rw [hy, affine_line] at h1
    linarith
  have hyF : l F y = 0 := by rw [hy, affine_line, hxF, hgF]; ring
  have hym := (mem_conv_iff ft y).1 hmem
  -- exactly one vertex is off the hyperplane
  have hzero : ∀ j ∈ T, crd K T j y * l F j = 0 := by
    rw [affine_eq ft (l F) y, Finset.sum_eq_zero_iff_of_nonneg (fun j hj => mul_nonneg (hym j hj) (h.nonneg F hF T hT j hj))] at hyF
    exact hyF
  have hone : ∀ a ∈ T, ∀ c ∈ T, l F a ≠ 0 → l F c ≠ 0 → a = c := by
    intro a ha c hc la lc
    by_contra hac
    apply e3
    refine Set.mem_biUnion (x := (T, a, c)) ?_ ?_
    · show (T, a, c) ∈ idx.filter _
      rw [Finset.mem_filter, hidx]; exact ⟨⟨hT, ha, hc⟩, hac⟩
    · exact mem_ridge_span ft ha hc hac ((mul_eq_zero.1 (hzero a ha)).resolve_right la) ((mul_eq_zero.1 (hzero c hc)).resolve_right lc)
  obtain ⟨a, ha, la⟩ : ∃ a ∈ T, l F a ≠ 0 := by
    by_contra hh
    push Not at hh
    obtain ⟨u, hu⟩ := h.ne F hF
    exact hu (affine_ext_zero ft _ hh u)
  have hface : ∀ j ∈ T.erase a, l F j = 0 := by
    intro j hj
    by_contra hn
    exact Finset.ne_of_mem_erase hj (hone j (Finset.mem_of_mem_erase hj) a ha hn la)
  have hla : 0 < l F a := lt_of_le_of_ne (h.nonneg F hF T hT a ha) (Ne.symm la)
  have hsingle := affine_eq_single ft (l F) ha hface
  refine ⟨T.erase a, ?_, hface, mem_conv_face ft ha hxT ?_⟩
  · by_contra hn
    obtain ⟨T', hT', i', hi', he', hneg⟩ := h.neighbour hT ha hn
    have h1 := h.nonneg F hF T' hT' i' hi'
    rw [hsingle i'] at h1
    have := mul_neg_of_neg_of_pos hneg hla
    linarith
  · have h1 := hsingle x
    rw [hxF] at h1
    exact (mul_eq_zero.1 h1.symm).resolve_right la

/-- the hull is bounded -/
theorem bounded {u x : E} (hne : u ≠ x) : ∃ t : K, 1 ≤ t ∧ ∀ T ∈ I, AffineMap.lineMap u x t ∉ convexHull K (T : Set E) := by
  have hneg : ∀ T ∈ I, ∃ i ∈ T, crd K T i x < crd K T i u := by
    intro T hT
    by_contra hn
    push Not at hn
    have ft := h.full T hT
    have e : ∀ i ∈ T, crd K T i u = crd K T i x := by
      have h1 : ∑ i ∈ T, (crd K T i x - crd K T i u) = 0 := by rw [Finset.sum_sub_distrib, crd_sum ft, crd_sum ft, sub_self]
      rw [Finset.sum_eq_zero_iff_of_nonneg (fun i hi => sub_nonneg.2 (hn i hi))] at h1
      intro i hi
      have := h1 i hi
      linarith
    apply hne
    rw [← crd_comb ft u, ← crd_comb ft x]
    exact Finset.sum_congr rfl fun i hi => by rw [e i hi]
  choose! i hi hlt using hneg
  have hb : ∃ t : K, 1 ≤ t ∧ ∀ T ∈ I, crd K T (i T) u + t * (crd K T (i T) x - crd K T (i T) u) < 0 := by
    clear hi
    revert hlt
    generalize I = J
    induction J using Finset.induction_on with
    | empty => exact fun _ => ⟨1, le_refl _, by simp⟩
    | insert T J _ ih =>
      intro hlt
      obtain ⟨t, t1, t2⟩ := ih fun T' hT' => hlt T' (Finset.mem_insert_of_mem hT')
      have h0 := hlt T (Finset.mem_insert_self _ _)
      set c := crd K T (i T) u
      set d := crd K T (i T) u - crd K T (i T) x
      have hd : 0 < d := by simp only [d]; linarith
      refine ⟨max t (|c| / d + 1), t1.trans (le_max_left _ _), ?_⟩
      intro T' hT'
      rcases Finset.mem_insert.1 hT' with rfl | hT'
      · have h3 : |c| / d + 1 ≤ max t (|c| / d + 1) := le_max_right _ _
        have h4 : (|c| / d + 1) * d ≤ max t (|c| / d + 1) * d := mul_le_mul_of_nonneg_right h3 hd.le
        have h5 : (|c| / d + 1) * d = |c| + d := by field_simp
        have h6 := le_abs_self c
        have h7 : crd K T' (i T') x - crd K T' (i T') u = -d := by simp only [d]; ring
        rw [h7]
        linarith
      · have h3 := t2 T' hT'
        have h4 := hlt T' (Finset.mem_insert_of_mem hT')
        have h5 : t * (crd K T' (i T') u - crd K T' (i T') x) ≤ max t (|c| / d + 1) * (crd K T' (i T') u - crd K T' (i T') x) :=
          mul_le_mul_of_nonneg_right (le_max_left _ _) (by linarith)
        linarith
  obtain ⟨t, t1, t2⟩ := hb
  refine ⟨t, t1, fun T hT hm => ?_⟩
  rw [mem_conv_iff (h.full T hT)] at hm
  have h1 := hm (i T) (hi T hT)
  rw [affine_line] at h1
  have h2 := t2 T hT
  linarith

/-- from any point of the hull, in any direction, the boundary is reached at a facet -/
theorem reach {u x : E} (hne : u ≠ x) (hx : ∀ G ∈ Fc, 0 ≤ l G x) :
    ∃ t : K, 1 ≤ t ∧ (∀ G ∈ Fc, 0 ≤ l G (AffineMap.lineMap u x t)) ∧ ∃ F ∈ Fc, AffineMap.lineMap u x t ∈ convexHull K (F : Set E) ∧
      l F (AffineMap.lineMap u x t) = 0 := by
  obtain ⟨t, t1, ht⟩ := h.bounded hne
  have hout : ∃ F ∈ Fc, l F (AffineMap.lineMap u x t) < 0 := by
    by_contra hn
    push Not at hn
    obtain ⟨T, hT, hm⟩ := h.complete hn
    exact ht T hT hm
  obtain ⟨r, r0, r1, r2, F, hF, r3, -⟩ := exit_point Fc (fun F => l F x) (fun F => l F (AffineMap.lineMap u x t)) (t0 := 0) zero_le_one
    (fun F hF => by simpa using hx F hF) hout
  have hp : AffineMap.lineMap u x (1 + r * (t - 1)) = AffineMap.lineMap x (AffineMap.lineMap u x t) r := by
    simp only [AffineMap.lineMap_apply_module]
    module
  have hH : ∀ G ∈ Fc, 0 ≤ l G (AffineMap.lineMap u x (1 + r * (t - 1))) := by
    intro G hG
    rw [hp, affine_line]
    exact r2 G hG
  have h0 : l F (AffineMap.lineMap u x (1 + r * (t - 1))) = 0 := by rw [hp, affine_line]; exact r3
  obtain ⟨G, hG, hc, hm⟩ := h.facet_cover hF hH h0
  refine ⟨1 + r * (t - 1), by have := mul_nonneg r0 (show 0 ≤ t - 1 by linarith); linarith, hH, G, hG, hm, ?_⟩
  exact le_antisymm (by
    have := nonneg_conv hm (l := -l G) (fun y hy => by
      show 0 ≤ -(l G y)
      rw [h.zero G hG y hy, neg_zero])
    have h2 : (-l G) (AffineMap.lineMap u x (1 + r * (t - 1))) = -(l G (AffineMap.lineMap u x (1 + r * (t - 1)))) := rfl
    rw [h2] at this
    linarith) (hH G hG)

/-- the hull is the convex hull of the vertices of its facets -/
theorem boundary_conv (hn : Module.finrank K E ≠ 0) {x : E} (hx : ∀ G ∈ Fc, 0 ≤ l G x) :
    x ∈ convexHull K {y | ∃ F ∈ Fc, y ∈ F} := by
  have : Nontrivial E := Module.nontrivial_of_finrank_pos (R := K) (Nat.pos_of_ne_zero hn)
  -- there is a facet, and it has a vertex
  obtain ⟨u0, hu0⟩ := exists_ne x
  obtain ⟨t, -, -, F, hF, -, -⟩ := h.reach hu0 hx
  have hFne : F.Nonempty := by
    obtain ⟨T, hT, i, hi, he⟩ := h.facet hF
    rw [← Finset.card_pos, ← he, Finset.card_erase_of_mem hi, (h.full T hT).card]
    omega
  obtain ⟨u, hu⟩ := hFne
  have hum : u ∈ convexHull K {y | ∃ F ∈ Fc, y ∈ F} := subset_convexHull K _ ⟨F, hF, hu⟩
  by_cases hux : u = x
  · rw [← hux]; exact hum
  obtain ⟨t, t1, -, G, hG, hm, -⟩ := h.reach hux hx
  have hzm : AffineMap.lineMap u x t ∈ convexHull K {y | ∃ F ∈ Fc, y ∈ F} :=
    convexHull_mono (fun y hy => (⟨G, hG, hy⟩ : ∃ F ∈ Fc, y ∈ F)) hm
  have ht0 : t ≠ 0 := by linarith
  have := (convex_convexHull K {y | ∃ F ∈ Fc, y ∈ F}) hum hzm (a := 1 - t⁻¹) (b := t⁻¹) (by
    have : t⁻¹ ≤ 1 := inv_le_one_of_one_le₀ t1
    linarith) (inv_nonneg.2 (by linarith)) (by ring)
  convert this using 1
  rw [AffineMap.lineMap_apply_module, smul_add, smul_smul, smul_smul, inv_mul_cancel₀ ht0, one_smul, ← add_assoc, ← add_smul]
  have : 1 - t⁻¹ + t⁻¹ * (1 - t) = 0 := by field_simp; ring
  rw [this, zero_smul, zero_add]

end IsHull
end

end Verif.Geometry
