import Verif.Proofs.HullCoord
import Mathlib.Order.Interval.Set.Infinite
import Mathlib.Tactic.Module
import Mathlib.Algebra.Ring.Parity

/-! # A triangulated convex hull contains every point on the positive sides of its facets -/

namespace Verif.Geometry

open Classical

/-- `R` is a face of codimension one of `T` -/
def IsFace {E : Type} (R T : Finset E) : Prop := ∃ i ∈ T, T.erase i = R

section
variable {K E : Type} [Field K] [LinearOrder K] [IsStrictOrderedRing K] [AddCommGroup E] [Module K E]

omit [LinearOrder K] [IsStrictOrderedRing K] in
theorem comb_mem_span {s : Finset E} {w : E → K} (hw : ∑ k ∈ s, w k = 1) : ∑ k ∈ s, w k • k ∈ affineSpan K (s : Set E) := by
  have hw' : ∑ k : s, w k = 1 := by rw [Finset.sum_coe_sort s w]; exact hw
  have := affineCombination_mem_affineSpan (k := K) (s := Finset.univ) hw' (fun k : s => (k : E))
  rw [Finset.affineCombination_eq_linear_combination _ _ _ hw', Finset.sum_coe_sort s (fun k => w k • k)] at this
  convert this
  ext y
  simp

omit [LinearOrder K] [IsStrictOrderedRing K] in
/-- a line with a point outside a subspace meets it at most once -/
theorem line_bad {A : AffineSubspace K E} {x g : E} (hg : g ∉ A) : {t : K | AffineMap.lineMap x g t ∈ A}.Finite := by
  apply Set.Subsingleton.finite
  intro s hs t ht
  by_contra hst
  apply hg
  have h0 : t - s ≠ 0 := sub_ne_zero.2 (Ne.symm hst)
  have := AffineMap.lineMap_mem ((1 - s) / (t - s)) hs ht
  convert this using 1
  simp only [AffineMap.lineMap_apply_module]
  have e1 : (1 - (1 - s) / (t - s)) * (1 - s) + (1 - s) / (t - s) * (1 - t) = 0 := by field_simp; ring
  have e2 : (1 - (1 - s) / (t - s)) * s + (1 - s) / (t - s) * t = 1 := by field_simp; ring
  rw [smul_add, smul_add, smul_smul, smul_smul, smul_smul, smul_smul]
  have : ((1 - (1 - s) / (t - s)) * (1 - s)) • x + ((1 - (1 - s) / (t - s)) * s) • g +
      (((1 - s) / (t - s) * (1 - t)) • x + ((1 - s) / (t - s) * t) • g) =
      ((1 - (1 - s) / (t - s)) * (1 - s) + (1 - s) / (t - s) * (1 - t)) • x + ((1 - (1 - s) / (t - s)) * s + (1 - s) / (t - s) * t) • g := by
    module
  rw [this, e1, e2]
  simp

/-- a small parameter that avoids a finite set -/
theorem small_avoid {δ : K} (hd : 0 < δ) {s : Set K} (hs : s.Finite) : ∃ ε, 0 < ε ∧ ε < δ ∧ ε ∉ s := by
  obtain ⟨ε, h1, h2⟩ := ((Set.Ioo_infinite hd).diff hs).nonempty
  exact ⟨ε, h1.1, h1.2, h2⟩

theorem avoid_aux {ι : Type} (s : Finset ι) (A : ι → AffineSubspace K E) (hA : ∀ i ∈ s, A i ≠ ⊤) : ∃ g, ∀ i ∈ s, g ∉ A i := by
  induction s using Finset.induction_on with
  | empty => exact ⟨0, by simp⟩
  | insert j s hj ih =>
    obtain ⟨g, hg⟩ := ih fun i hi => hA i (Finset.mem_insert_of_mem hi)
    obtain ⟨x, hx⟩ : ∃ x, x ∉ A j := by
      by_contra hh
      push Not at hh
      exact hA j (Finset.mem_insert_self j s) (by ext y; simp [hh y])
    have hfin : (⋃ i ∈ s, {t : K | AffineMap.lineMap x g t ∈ A i}).Finite := s.finite_toSet.biUnion fun i hi => line_bad (hg i hi)
    have hfin2 : {t : K | AffineMap.lineMap x g t ∈ A j}.Finite := by
      have := (line_bad (x := g) hx).image fun t => 1 - t
      apply this.subset
      intro t ht
      refine ⟨1 - t, ?_, by simp⟩
      show AffineMap.lineMap g x (1 - t) ∈ A j
      rw [AffineMap.lineMap_apply_one_sub]
      exact ht
    obtain ⟨ε, -, -, h3⟩ := small_avoid one_pos (hfin.union hfin2)
    refine ⟨AffineMap.lineMap x g ε, fun i hi hm => h3 ?_⟩
    rcases Finset.mem_insert.1 hi with rfl | hi
    · exact .inr hm
    · exact .inl (Set.mem_biUnion hi hm)

/-- a point near `b` outside finitely many proper subspaces -/
theorem avoid {ι κ : Type} (s : Finset ι) (A : ι → AffineSubspace K E) (hA : ∀ i ∈ s, A i ≠ ⊤) (b : E) (u : Finset κ) (l : κ → E →ᵃ[K] K)
    (hl : ∀ k ∈ u, 0 < l k b) : ∃ g, (∀ i ∈ s, g ∉ A i) ∧ ∀ k ∈ u, 0 < l k g := by
  obtain ⟨g, hg⟩ := avoid_aux s A hA
  have hfin : (⋃ i ∈ s, {t : K | AffineMap.lineMap b g t ∈ A i}).Finite := s.finite_toSet.biUnion fun i hi => line_bad (hg i hi)
  obtain ⟨δ, d1, d2, d3⟩ := exists_small u (fun k => l k b) (fun k => l k g) hl
  obtain ⟨ε, e1, e2, e3⟩ := small_avoid d1 hfin
  refine ⟨AffineMap.lineMap b g ε, fun i hi hm => e3 (Set.mem_biUnion hi hm), fun k hk => ?_⟩
  rw [affine_line]
  exact d3 ε e1 e2 k hk

/-- where a segment leaves the region where finitely many affine functions are not negative -/
theorem exit_point {ι : Type} (s : Finset ι) (a b : ι → K) {t0 : K} (h1 : t0 ≤ 1) (h0 : ∀ i ∈ s, 0 ≤ (1 - t0) * a i + t0 * b i)
    (hb : ∃ i ∈ s, b i < 0) : ∃ r, t0 ≤ r ∧ r < 1 ∧ (∀ i ∈ s, 0 ≤ (1 - r) * a i + r * b i) ∧ ∃ i ∈ s, (1 - r) * a i + r * b i = 0 ∧ b i < 0 := by
  obtain ⟨i0, hi0, hb0⟩ := hb
  have key : ∀ i, b i < 0 → i ∈ s → 0 < a i - b i ∧ t0 ≤ a i / (a i - b i) ∧ a i / (a i - b i) < 1 := by
    intro i hbi hi
    have ht : t0 < 1 := by
      rcases h1.lt_or_eq with ht | ht
      · exact ht
      · have := h0 i hi; rw [ht] at this; simp at this; exact absurd hbi (not_lt.2 this)
    have h2 := h0 i hi
    have h3 : 0 < a i - b i := by
      by_contra hn
      have : (1 - t0) * a i ≤ (1 - t0) * b i := mul_le_mul_of_nonneg_left (by linarith) (by linarith)
      nlinarith
    refine ⟨h3, ?_, ?_⟩
    · rw [le_div_iff₀ h3]; nlinarith
    · rw [div_lt_one h3]; linarith
  obtain ⟨i, hi, hmin⟩ := Finset.exists_min_image (s.filter fun i => b i < 0) (fun i => a i / (a i - b i)) ⟨i0, by simp [hi0, hb0]⟩
  rw [Finset.mem_filter] at hi
  obtain ⟨k1, k2, k3⟩ := key i hi.2 hi.1
  refine ⟨a i / (a i - b i), k2, k3, ?_, i, hi.1, by field_simp; ring, hi.2⟩
  intro j hj
  by_cases hbj : b j < 0
  · obtain ⟨m1, m2, m3⟩ := key j hbj hj
    have := hmin j (by simp [hj, hbj])
    rw [le_div_iff₀ m1] at this
    nlinarith
  · rw [not_lt] at hbj
    -- affine with values not negative at `t0` and `1`
    have h2 := h0 j hj
    have ht : t0 < 1 := k2.trans_lt k3
    set r := a i / (a i - b i)
    have e : (1 - r) * a j + r * b j = (1 - r) / (1 - t0) * ((1 - t0) * a j + t0 * b j) + (r - t0) / (1 - t0) * b j := by
      have : (1 : K) - t0 ≠ 0 := by linarith
      field_simp
      ring
    rw [e]
    exact add_nonneg (mul_nonneg (div_nonneg (by linarith) (by linarith)) h2) (mul_nonneg (div_nonneg (by linarith) (by linarith)) hbj)

end

section
variable {K E : Type} [Field K] [LinearOrder K] [IsStrictOrderedRing K] [AddCommGroup E] [Module K E] [FiniteDimensional K E]

/-- The state of the convex hull algorithm in its own affine span: the simplices `I` are of full dimension and do not overlap, the facets
`Fc` are their boundary (counted modulo two), and all the simplices are on the side of each facet where its function `l` is not
negative. -/
structure IsHull (I Fc : Finset (Finset E)) (l : Finset E → E →ᵃ[K] K) : Prop where
  nonempty : I.Nonempty
  full : ∀ T ∈ I, Full K T
  zero : ∀ F ∈ Fc, ∀ x ∈ F, l F x = 0
  nonneg : ∀ F ∈ Fc, ∀ T ∈ I, ∀ x ∈ T, 0 ≤ l F x
  ne : ∀ F ∈ Fc, ∃ x, l F x ≠ 0
  chain : ∀ R, R ∈ Fc ↔ Odd (I.filter (IsFace R)).card
  disj : ∀ T ∈ I, ∀ T' ∈ I, ∀ x, Inside K T x → Inside K T' x → T = T'

namespace IsHull
variable {I Fc : Finset (Finset E)} {l : Finset E → E →ᵃ[K] K} (h : IsHull I Fc l)
include h

theorem facet {F : Finset E} (hF : F ∈ Fc) : ∃ T ∈ I, ∃ i ∈ T, T.erase i = F := by
  have := (h.chain F).1 hF
  obtain ⟨T, hT⟩ := Finset.card_pos.1 this.pos
  rw [Finset.mem_filter] at hT
  exact ⟨T, hT.1, hT.2⟩

theorem facet_fun {F T : Finset E} (hF : F ∈ Fc) (hT : T ∈ I) {i : E} (hi : i ∈ T) (he : T.erase i = F) :
    0 < l F i ∧ ∀ x, l F x = crd K T i x * l F i := by
  have h1 := affine_eq_single (h.full T hT) (l F) hi (fun j hj => h.zero F hF j (he ▸ hj))
  refine ⟨lt_of_le_of_ne (h.nonneg F hF T hT i hi) fun e => ?_, h1⟩
  obtain ⟨x, hx⟩ := h.ne F hF
  exact hx (by rw [h1 x, ← e, mul_zero])

theorem inside_pos {F T : Finset E} (hF : F ∈ Fc) (hT : T ∈ I) {b : E} (hb : Inside K T b) : 0 < l F b := by
  apply hb.pos (h.full T hT) (h.nonneg F hF T hT)
  by_contra hn
  push Not at hn
  obtain ⟨x, hx⟩ := h.ne F hF
  exact hx (affine_ext_zero (h.full T hT) _ (fun j hj => le_antisymm (hn j hj) (h.nonneg F hF T hT j hj)) x)

/-- a face of a simplex that is not a facet belongs to another simplex, on the other side -/
theorem neighbour {T : Finset E} (hT : T ∈ I) {i : E} (hi : i ∈ T) (hF : T.erase i ∉ Fc) :
    ∃ T' ∈ I, ∃ i' ∈ T', T'.erase i' = T.erase i ∧ crd K T i i' < 0 := by
  have h1 : T ∈ I.filter (IsFace (T.erase i)) := by rw [Finset.mem_filter]; exact ⟨hT, i, hi, rfl⟩
  have h2 : ¬ Odd (I.filter (IsFace (T.erase i))).card := fun ho => hF ((h.chain _).2 ho)
  have h3 : 1 < (I.filter (IsFace (T.erase i))).card := by
    have := Finset.card_pos.2 ⟨T, h1⟩
    rcases Nat.lt_or_ge 1 (I.filter (IsFace (T.erase i))).card with h4 | h4
    · exact h4
    · exfalso; apply h2
      rw [show (I.filter (IsFace (T.erase i))).card = 1 by omega]
      exact odd_one
  obtain ⟨T', hT', hne⟩ := Finset.exists_mem_ne h3 T
  rw [Finset.mem_filter] at hT'
  obtain ⟨hT'I, i', hi', he⟩ := hT'
  refine ⟨T', hT'I, i', hi', he, ?_⟩
  by_contra hn
  have hpos : 0 < crd K T i i' := lt_of_le_of_ne (not_lt.1 hn) (crd_neighbour_ne (h.full T hT) (h.full T' hT'I) hi hi' he.symm).symm
  obtain ⟨x, x1, x2⟩ := overlap_of_same_side (h.full T hT) (h.full T' hT'I) hi hi' he.symm hpos
  exact hne (h.disj T' hT'I T hT x x2 x1)

/-- the walk from a point inside to a point on the positive side of all facets never leaves the simplices -/
theorem walk {T0 : Finset E} (hT0 : T0 ∈ I) {b : E} (hb : Inside K T0 b) {x : E} (hx : ∀ F ∈ Fc, 0 < l F x)
    (hgen : ∀ T ∈ I, ∀ i ∈ T, ∀ j ∈ T, i ≠ j → x ∉ affineSpan K (insert b (((T.erase i).erase j : Finset E) : Set E))) :
    ∃ T ∈ I, x ∈ convexHull K (T : Set E) := by
  by_contra hno
  push Not at hno
  -- the exit times
  have hexit : ∀ T ∈ I, (∃ t : K, 0 ≤ t ∧ t ≤ 1 ∧ AffineMap.lineMap b x t ∈ convexHull K (T : Set E)) →
      ∃ r : K, 0 ≤ r ∧ r < 1 ∧ AffineMap.lineMap b x r ∈ convexHull K (T : Set E) ∧
        (∃ i ∈ T, crd K T i (AffineMap.lineMap b x r) = 0 ∧ crd K T i x < 0) ∧
        ∀ t : K, 0 ≤ t → t ≤ 1 → AffineMap.lineMap b x t ∈ convexHull K (T : Set E) → t ≤ r := by
    rintro T hT ⟨t, t0, t1, ht⟩
    have hf := h.full T hT
    rw [mem_conv_iff hf] at ht
    have hxT := hno T hT
    rw [mem_conv_iff hf] at hxT
    push Not at hxT
    obtain ⟨r, r1, r2, r3, i, hi, r4, r5⟩ := exit_point T (fun i => crd K T i b) (fun i => crd K T i x) t1
      (fun i hi => by rw [← affine_line]; exact ht i hi) hxT
    refine ⟨r, t0.trans r1, r2, ?_, ⟨i, hi, by rw [affine_line]; exact r4, r5⟩, ?_⟩
    · rw [mem_conv_iff hf]
      intro j hj
      rw [affine_line]; exact r3 j hj
    · intro s s0 s1 hs
      rw [mem_conv_iff hf] at hs
      have h1 := hs i hi
      rw [affine_line] at h1
      have h0r : 0 ≤ r := t0.trans r1
      by_contra hrs
      rw [not_le] at hrs
      -- the function is zero at `r` and negative at `1`
      have e : (1 - s) * crd K T i b + s * crd K T i x = (1 - s) / (1 - r) * ((1 - r) * crd K T i b + r * crd K T i x) + (s - r) / (1 - r) * crd K T i x := by
        have : (1 : K) - r ≠ 0 := by linarith
        field_simp
        ring
      rw [e, r4, mul_zero, zero_add] at h1
      have : 0 < (s - r) / (1 - r) := div_pos (by linarith) (by linarith)
      nlinarith
  choose! r hr using hexit
  have hmem0 : ∃ t : K, 0 ≤ t ∧ t ≤ 1 ∧ AffineMap.lineMap b x t ∈ convexHull K (T0 : Set E) :=
    ⟨0, le_refl _, zero_le_one, by rw [AffineMap.lineMap_apply_zero]; exact hb.mem_conv (h.full T0 hT0)⟩
  obtain ⟨T, hTm, hmax⟩ := Finset.exists_max_image
    (I.filter fun T : Finset E => ∃ t : K, 0 ≤ t ∧ t ≤ 1 ∧ AffineMap.lineMap b x t ∈ convexHull K (T : Set E)) r ⟨T0, by rw [Finset.mem_filter]; exact ⟨hT0, hmem0⟩⟩
  rw [Finset.mem_filter] at hTm
  obtain ⟨hT, hTt⟩ := hTm
  have hf := h.full T hT
  obtain ⟨r0, r1, rm, ⟨i, hi, ri, xi⟩, rmax⟩ := hr T hT hTt
  -- the exit time is positive
  have hrpos : 0 < r T := by
    refine lt_of_lt_of_le ?_ (hmax T0 (by rw [Finset.mem_filter]; exact ⟨hT0, hmem0⟩))
    obtain ⟨s0, s1, sm, ⟨k, hk, sk, -⟩, -⟩ := hr T0 hT0 hmem0
    refine lt_of_le_of_ne s0 fun e => ?_
    rw [← e, AffineMap.lineMap_apply_zero] at sk
    exact absurd (hb k hk) (by rw [sk]; exact lt_irrefl _)
  set z := AffineMap.lineMap b x (r T) with hz
  rw [mem_conv_iff hf] at rm
  -- the other coordinates are positive
  have hzj : ∀ j ∈ T.erase i, 0 < crd K T j z := by
    intro j hj
    have hjT := Finset.mem_of_mem_erase hj
    have hji := Finset.ne_of_mem_erase hj
    refine lt_of_le_of_ne (rm j hjT) fun e => ?_
    apply hgen T hT i hi j hjT (Ne.symm hji)
    have hzm : z ∈ affineSpan K (((T.erase i).erase j : Finset E) : Set E) := by
      have hw := crd_sum hf z
      have hc := crd_comb hf z
      rw [← Finset.add_sum_erase T _ hi, ri, ← Finset.add_sum_erase _ _ hj, ← e, zero_add, zero_add] at hw
      rw [← Finset.add_sum_erase T _ hi, ri, ← Finset.add_sum_erase _ _ hj, ← e, zero_smul, zero_smul, zero_add, zero_add] at hc
      have := comb_mem_span hw
      rw [hc] at this
      exact this
    have h1 : z ∈ affineSpan K (insert b (((T.erase i).erase j : Finset E) : Set E)) := affineSpan_mono K (Set.subset_insert _ _) hzm
    have h2 : b ∈ affineSpan K (insert b (((T.erase i).erase j : Finset E) : Set E)) := subset_affineSpan K _ (Set.mem_insert _ _)
    have h3 := AffineMap.lineMap_mem (1 / r T) h2 h1
    convert h3 using 1
    simp only [hz, AffineMap.lineMap_apply_module]
    have : r T ≠ 0 := hrpos.ne'
    rw [smul_add, smul_smul, smul_smul, one_div, inv_mul_cancel₀ this, one_smul, ← add_assoc, ← add_smul]
    have e0 : (1 - (r T)⁻¹ + (r T)⁻¹ * (1 - r T)) = 0 := by field_simp; ring
    rw [e0, zero_smul, zero_add]
  by_cases hF : T.erase i ∈ Fc
  · -- a facet cannot be crossed
    have h1 := (h.facet_fun hF hT hi rfl).2 z
    rw [ri, zero_mul, hz, affine_line] at h1
    have h2 := h.inside_pos hF hT0 hb
    have h3 := hx _ hF
    have h4 : 0 < (1 - r T) * l (T.erase i) b := mul_pos (by linarith) h2
    have h5 : 0 < r T * l (T.erase i) x := mul_pos hrpos h3
    linarith
  · obtain ⟨T', hT', i', hi', he, hneg⟩ := h.neighbour hT hi hF
    have hf' := h.full T' hT'
    -- the point a little further on is in `T'`
    have hzi' : crd K T' i' z = 0 := by
      have := crd_neighbour hf hf' hi hi' he.symm z
      rw [ri] at this
      exact (mul_eq_zero.1 this.symm).resolve_right hneg.ne
    have hxi' : 0 < crd K T' i' x := by
      have := crd_neighbour hf hf' hi hi' he.symm x
      by_contra hn
      have := mul_nonneg_of_nonpos_of_nonpos (not_lt.1 hn) hneg.le
      linarith
    obtain ⟨δ, d1, d2, d3⟩ := exists_small (T.erase i) (fun j => crd K T' j z) (fun j => crd K T' j x) (fun j hj => by
      rw [crd_face hf hf' hi hi' he.symm ri hj]; exact hzj j hj)
    obtain ⟨ε, ε1, ε2⟩ := exists_between d1
    have hp : AffineMap.lineMap z x ε = AffineMap.lineMap b x (r T + ε * (1 - r T)) := by
      simp only [hz, AffineMap.lineMap_apply_module]
      module
    have hm : AffineMap.lineMap z x ε ∈ convexHull K (T' : Set E) := by
      rw [mem_conv_iff hf']
      intro j hj
      rw [affine_line]
      by_cases hji : j = i'
      · subst hji
        rw [hzi', mul_zero, zero_add]
        exact (mul_pos ε1 hxi').le
      · exact (d3 ε ε1 ε2 j (by rw [← he]; exact Finset.mem_erase.2 ⟨hji, hj⟩)).le
    rw [hp] at hm
    have hs0 : 0 < ε * (1 - r T) := mul_pos ε1 (by linarith)
    have hs1 : r T + ε * (1 - r T) ≤ 1 := by
      have : ε * (1 - r T) ≤ 1 * (1 - r T) := mul_le_mul_of_nonneg_right (by linarith) (by linarith)
      linarith
    have hT't : ∃ t : K, 0 ≤ t ∧ t ≤ 1 ∧ AffineMap.lineMap b x t ∈ convexHull K (T' : Set E) := ⟨_, by linarith, hs1, hm⟩
    have h1 := (hr T' hT' hT't).2.2.2.2 _ (by linarith) hs1 hm
    have h2 := hmax T' (by rw [Finset.mem_filter]; exact ⟨hT', hT't⟩)
    linarith

/-- every point on the non-negative sides of all the facets is in one of the simplices -/
theorem complete {x : E} (hx : ∀ F ∈ Fc, 0 ≤ l F x) : ∃ T ∈ I, x ∈ convexHull K (T : Set E) := by
  obtain ⟨T0, hT0⟩ := h.nonempty
  obtain ⟨b, hb⟩ := (h.full T0 hT0).exists_inside
  let idx : Finset (Finset E × E × E) := I.biUnion fun T => (T ×ˢ T).image fun p => (T, p.1, p.2)
  let A : Finset E × E × E → AffineSubspace K E := fun p => affineSpan K (insert b (((p.1.erase p.2.1).erase p.2.2 : Finset E) : Set E))
  have hidx : ∀ p, p ∈ idx ↔ p.1 ∈ I ∧ p.2.1 ∈ p.1 ∧ p.2.2 ∈ p.1 := by
    rintro ⟨T, i, j⟩
    simp only [idx, Finset.mem_biUnion, Finset.mem_image, Finset.mem_product, Prod.mk.injEq, Prod.exists]
    constructor
    · rintro ⟨T, hT, i, j, ⟨hi, hj⟩, rfl, rfl, rfl⟩; exact ⟨hT, hi, hj⟩
    · rintro ⟨hT, hi, hj⟩; exact ⟨T, hT, i, j, ⟨hi, hj⟩, rfl, rfl, rfl⟩
  obtain ⟨g, hg1, hg2⟩ := avoid (idx.filter fun p => p.2.1 ≠ p.2.2) A (by
    rintro ⟨T, i, j⟩ hp
    rw [Finset.mem_filter, hidx] at hp
    obtain ⟨⟨hT, hi, hj⟩, hij⟩ := hp
    simp only at hT hi hj hij
    intro htop
    simp only [A] at htop
    have hc : ((T.erase i).erase j).card + 2 = Module.finrank K E + 1 := by
      rw [Finset.card_erase_of_mem (Finset.mem_erase.2 ⟨Ne.symm hij, hj⟩), Finset.card_erase_of_mem hi, (h.full T hT).card]
      have : 1 < T.card := Finset.one_lt_card.2 ⟨i, hi, j, hj, hij⟩
      rw [(h.full T hT).card] at this
      omega
    have h2 : Module.finrank K (vectorSpan K ((insert b ((T.erase i).erase j) : Finset E) : Set E)) + 1 ≤ (insert b ((T.erase i).erase j)).card := by
      have hne : (insert b ((T.erase i).erase j) : Finset E).Nonempty := Finset.insert_nonempty _ _
      have := finrank_vectorSpan_image_finset_le K (fun k : E => k) (insert b ((T.erase i).erase j)) (n := (insert b ((T.erase i).erase j)).card - 1) (by
        have := hne.card_pos; omega)
      rw [Finset.image_id'] at this
      have h3 := hne.card_pos
      omega
    have h3 : vectorSpan K ((insert b ((T.erase i).erase j) : Finset E) : Set E) = ⊤ := by
      rw [← direction_affineSpan, Finset.coe_insert, htop, AffineSubspace.direction_top]
    rw [h3, finrank_top] at h2
    have h4 := Finset.card_insert_le b ((T.erase i).erase j)
    omega) b Fc l (fun F hF => h.inside_pos hF hT0 hb)
  by_contra hno
  push Not at hno
  -- stay near `x`
  have hneg : ∀ T ∈ I, ∃ i ∈ T, crd K T i x < 0 := by
    intro T hT
    have := hno T hT
    rw [mem_conv_iff (h.full T hT)] at this
    push Not at this
    exact this
  choose! i hi hineg using hneg
  obtain ⟨δ, d1, d2, d3⟩ := exists_small I (fun T => -crd K T (i T) x) (fun T => -crd K T (i T) g) (fun T hT => by have := hineg T hT; linarith)
  have hfin : (⋃ p ∈ (idx.filter fun p => p.2.1 ≠ p.2.2), {t : K | AffineMap.lineMap x g t ∈ A p}).Finite :=
    (Finset.finite_toSet _).biUnion fun p hp => line_bad (hg1 p hp)
  obtain ⟨ε, e1, e2, e3⟩ := small_avoid d1 hfin
  obtain ⟨T, hT, hmem⟩ := h.walk hT0 hb (x := AffineMap.lineMap x g ε) (by
    intro F hF
    rw [affine_line]
    exact add_pos_of_nonneg_of_pos (mul_nonneg (by linarith) (hx F hF)) (mul_pos e1 (hg2 F hF))) (by
    intro T hT i hi j hj hij hm
    apply e3
    exact Set.mem_biUnion (x := (T, i, j)) (by
      show (T, i, j) ∈ idx.filter _
      rw [Finset.mem_filter, hidx]; exact ⟨⟨hT, hi, hj⟩, hij⟩) hm)
  rw [mem_conv_iff (h.full T hT)] at hmem
  have h1 := hmem (i T) (hi T hT)
  have h2 := d3 ε e1 e2 T hT
  rw [affine_line] at h1
  linarith

end IsHull
end

end Verif.Geometry
