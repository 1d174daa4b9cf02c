import Verif.Proofs.HullRidge

/-! # Adding a point to a triangulated convex hull -/

namespace Verif.Geometry

open Classical

section
variable {E : Type}

/-- the ridges that belong to an odd number of the facets `V` -/
noncomputable def oddRidges (V : Finset (Finset E)) : Finset (Finset E) :=
  (V.biUnion fun F => F.image fun i => F.erase i).filter fun R => Odd (V.filter (IsFace R)).card

theorem mem_oddRidges {V : Finset (Finset E)} {R : Finset E} : R ∈ oddRidges V ↔ Odd (V.filter (IsFace R)).card := by
  unfold oddRidges
  rw [Finset.mem_filter, and_iff_right_of_imp]
  intro ho
  obtain ⟨F, hF⟩ := Finset.card_pos.1 ho.pos
  rw [Finset.mem_filter] at hF
  obtain ⟨h1, i, hi, e⟩ := hF
  exact Finset.mem_biUnion.2 ⟨F, h1, Finset.mem_image.2 ⟨i, hi, e⟩⟩

theorem isFace_insert {R F : Finset E} {p : E} (hp : p ∉ F) : IsFace R (insert p F) ↔ R = F ∨ (p ∈ R ∧ IsFace (R.erase p) F) := by
  constructor
  · rintro ⟨i, hi, rfl⟩
    by_cases hip : i = p
    · subst hip; left; exact Finset.erase_insert hp
    · right
      have hiF : i ∈ F := (Finset.mem_insert.1 hi).resolve_left hip
      refine ⟨Finset.mem_erase.2 ⟨Ne.symm hip, Finset.mem_insert_self _ _⟩, i, hiF, ?_⟩
      rw [Finset.erase_right_comm, Finset.erase_insert hp]
  · rintro (rfl | ⟨hpR, i, hi, he⟩)
    · exact ⟨p, Finset.mem_insert_self _ _, Finset.erase_insert hp⟩
    · refine ⟨i, Finset.mem_insert_of_mem hi, ?_⟩
      have hip : i ≠ p := fun e => hp (e ▸ hi)
      rw [Finset.erase_insert_of_ne (Ne.symm hip), he, Finset.insert_erase hpR]

end

section
variable {K E : Type} [Field K] [AddCommGroup E] [Module K E] [FiniteDimensional K E]

omit [FiniteDimensional K E] in
/-- a point where an affine function that vanishes on the others does not vanish can be added to an independent set -/
theorem indep_insert {S : Finset E} (h1 : AffineIndependent K (fun x : S => (x : E))) {p : E} {m : E →ᵃ[K] K} (hm : ∀ x ∈ S, m x = 0)
    (hp : m p ≠ 0) : p ∉ S ∧ AffineIndependent K (fun x : (insert p S : Finset E) => (x : E)) := by
  have hpn : p ∉ S := fun hh => hp (hm p hh)
  refine ⟨hpn, ?_⟩
  rw [affineIndependent_iff_of_fintype]
  intro w hw hs
  rw [Finset.weightedVSub_eq_linear_combination (hw := hw)] at hs
  -- extend the weights to all of `E`
  let W : E → K := fun x => if hx : x ∈ insert p S then w ⟨x, hx⟩ else 0
  have hWw : ∀ x : (insert p S : Finset E), W x = w x := fun x => dif_pos x.2
  have e1 : ∑ x ∈ insert p S, W x = 0 := by
    rw [← hw, ← Finset.sum_coe_sort (insert p S)]
    exact Finset.sum_congr rfl fun x _ => hWw x
  have e2 : ∑ x ∈ insert p S, W x • x = 0 := by
    rw [← hs, ← Finset.sum_coe_sort (insert p S)]
    exact Finset.sum_congr rfl fun x _ => by rw [hWw x]
  have e3 : ∑ x ∈ insert p S, W x * m x = 0 := by
    have hmx : ∀ x, m x = m.linear x + m 0 := fun x => by
      have := m.map_vadd 0 x
      simpa using this
    have : ∑ x ∈ insert p S, W x * m x = m.linear (∑ x ∈ insert p S, W x • x) + (∑ x ∈ insert p S, W x) * m 0 := by
      rw [map_sum, Finset.sum_mul, ← Finset.sum_add_distrib]
      refine Finset.sum_congr rfl fun x _ => ?_
      rw [hmx x, map_smul, smul_eq_mul]; ring
    rw [this, e1, e2]; simp
  rw [Finset.sum_insert hpn, Finset.sum_eq_zero (fun x hx => by rw [hm x hx, mul_zero]), add_zero] at e3
  have hWp : W p = 0 := (mul_eq_zero.1 e3).resolve_right hp
  rw [Finset.sum_insert hpn, hWp, zero_add] at e1
  rw [Finset.sum_insert hpn, hWp, zero_smul, zero_add] at e2
  rw [affineIndependent_iff_of_fintype] at h1
  have e4 : ∑ x : S, W x = 0 := by rw [Finset.sum_coe_sort _ W]; exact e1
  have h2 := h1 (fun x => W x) e4 (by
    rw [Finset.weightedVSub_eq_linear_combination (hw := e4), Finset.sum_coe_sort _ (fun x => W x • x)]; exact e2)
  rintro ⟨x, hx⟩
  rw [← hWw ⟨x, hx⟩]
  rcases Finset.mem_insert.1 hx with rfl | hx'
  · exact hWp
  · exact h2 ⟨x, hx'⟩

/-- a point outside the hyperplane completes a face to a simplex -/
theorem Full.swap {T : Finset E} (h : Full K T) {i p : E} (hi : i ∈ T) {m : E →ᵃ[K] K} (hm : ∀ x ∈ T.erase i, m x = 0) (hp : m p ≠ 0) :
    p ∉ T.erase i ∧ Full K (insert p (T.erase i)) := by
  have h1 : AffineIndependent K (fun x : (T.erase i : Finset E) => (x : E)) :=
    h.indep.mono (s := ((T.erase i : Finset E) : Set E)) (t := (T : Set E)) (by intro x hx; exact Finset.mem_of_mem_erase hx)
  obtain ⟨hpn, h2⟩ := indep_insert h1 hm hp
  refine ⟨hpn, h2, ?_⟩
  rw [Finset.card_insert_of_notMem hpn, Finset.card_erase_of_mem hi, h.card]; rfl

end

section
variable {K E : Type} [Field K] [LinearOrder K] [IsStrictOrderedRing K] [AddCommGroup E] [Module K E] [FiniteDimensional K E]

namespace IsHull
variable {I Fc : Finset (Finset E)} {l : Finset E → E →ᵃ[K] K} (h : IsHull I Fc l)
include h

/-- two facets with a common point in their relative interiors are equal -/
theorem facet_disj {F F' T T' : Finset E} (hF : F ∈ Fc) (hF' : F' ∈ Fc) {i i' : E} (hT : T ∈ I) (hi : i ∈ T) (he : T.erase i = F)
    (hT' : T' ∈ I) (hi' : i' ∈ T') (he' : T'.erase i' = F') {z : E} (hz : crd K T i z = 0) (hzF : ∀ j ∈ F, 0 < crd K T j z)
    (hz' : crd K T' i' z = 0) (hzF' : ∀ j ∈ F', 0 < crd K T' j z) : F = F' := by
  have f := h.full T hT
  have f' := h.full T' hT'
  obtain ⟨p', k'⟩ := h.facet_fun hF' hT' hi' he'
  -- `F` is in the hyperplane of `F'`
  have hcop : ∀ j ∈ F, l F' j = 0 := by
    have h1 : l F' z = 0 := by rw [k' z, hz', zero_mul]
    rw [affine_eq f (l F') z, ← Finset.add_sum_erase T _ hi, hz, zero_mul, zero_add, he,
      Finset.sum_eq_zero_iff_of_nonneg (fun j hj => mul_nonneg (hzF j hj).le (h.nonneg F' hF' T hT j (Finset.mem_of_mem_erase (he.symm ▸ hj))))] at h1
    intro j hj
    exact (mul_eq_zero.1 (h1 j hj)).resolve_left (hzF j hj).ne'
  have hip : 0 < l F' i := by
    refine lt_of_le_of_ne (h.nonneg F' hF' T hT i hi) fun e => ?_
    obtain ⟨x, hx⟩ := h.ne F' hF'
    apply hx
    apply affine_ext_zero f _ (fun j hj => ?_) x
    by_cases hji : j = i
    · rw [hji, ← e]
    · exact hcop j (he ▸ Finset.mem_erase.2 ⟨hji, hj⟩)
  have hci : 0 < crd K T' i' i := by
    have := k' i
    by_contra hn
    have := mul_nonpos_of_nonpos_of_nonneg (not_lt.1 hn) p'.le
    linarith
  obtain ⟨δ1, d1, d2⟩ := push_inside (T := T) (z := z) (y := i) (by
    intro j hj
    by_cases hji : j = i
    · right; rw [hji]; exact ⟨hz, by rw [crd_self f hi]; exact one_pos⟩
    · left; exact hzF j (he ▸ Finset.mem_erase.2 ⟨hji, hj⟩))
  obtain ⟨δ2, d3, d4⟩ := push_inside (T := T') (z := z) (y := i) (by
    intro j hj
    by_cases hji : j = i'
    · right; rw [hji]; exact ⟨hz', hci⟩
    · left; exact hzF' j (he' ▸ Finset.mem_erase.2 ⟨hji, hj⟩))
  obtain ⟨ε, e1, e2⟩ := exists_between (lt_min d1 d3)
  have hTT := h.disj T hT T' hT' _ (d2 ε e1 (e2.trans_le (min_le_left _ _))) (d4 ε e1 (e2.trans_le (min_le_right _ _)))
  subst hTT
  have : i = i' := by
    by_contra hne
    exact absurd (h.zero F' hF' i (he' ▸ Finset.mem_erase.2 ⟨hne, hi⟩)) hip.ne'
  rw [← he, ← he', this]

/-- a facet and a point off its hyperplane make a simplex -/
theorem full_insert {F : Finset E} (hF : F ∈ Fc) {p : E} (hp : l F p ≠ 0) : p ∉ F ∧ Full K (insert p F) := by
  obtain ⟨T, hT, i, hi, he⟩ := h.facet hF
  have := (h.full T hT).swap hi (m := l F) (p := p) (fun x hx => h.zero F hF x (he ▸ hx)) hp
  rwa [he] at this

theorem nonneg_facet {F G : Finset E} (hF : F ∈ Fc) (hG : G ∈ Fc) {x : E} (hx : x ∈ F) : 0 ≤ l G x := by
  obtain ⟨T, hT, i, hi, he⟩ := h.facet hF
  exact h.nonneg G hG T hT x (Finset.mem_of_mem_erase (he.symm ▸ hx))

/-- two coplanar facets have proportional functions -/
theorem coplanar {F G : Finset E} (hF : F ∈ Fc) (hG : G ∈ Fc) (hc : ∀ x ∈ F, l G x = 0) : ∃ c, 0 < c ∧ ∀ x, l G x = c * l F x := by
  obtain ⟨T, hT, i, hi, he⟩ := h.facet hF
  obtain ⟨p1, k1⟩ := h.facet_fun hF hT hi he
  have k2 := affine_eq_single (h.full T hT) (l G) hi (fun j hj => hc j (he ▸ hj))
  have p2 : 0 < l G i := by
    refine lt_of_le_of_ne (h.nonneg G hG T hT i hi) fun e => ?_
    obtain ⟨x, hx⟩ := h.ne G hG
    exact hx (by rw [k2 x, ← e, mul_zero])
  refine ⟨l G i / l F i, div_pos p2 p1, fun x => ?_⟩
  rw [k2 x, k1 x]
  field_simp

variable {p : E}

/-- a ridge on the horizon belongs to one visible and one hidden facet -/
theorem horizon {R : Finset E} (hR : R ∈ oddRidges (Fc.filter fun F => l F p < 0)) :
    ∃ F ∈ Fc, l F p < 0 ∧ IsFace R F ∧ (∀ F' ∈ Fc, l F' p < 0 → IsFace R F' → F' = F) ∧ ∃ G ∈ Fc, 0 ≤ l G p ∧ IsFace R G ∧
      (∀ G' ∈ Fc, 0 ≤ l G' p → IsFace R G' → G' = G) := by
  rw [mem_oddRidges, Finset.filter_filter] at hR
  obtain ⟨F, hF⟩ := Finset.card_pos.1 hR.pos
  rw [Finset.mem_filter] at hF
  obtain ⟨hF, hv, hf⟩ := hF
  have h2 := h.ridge_two hF hf
  have hsplit : (Fc.filter (IsFace R)).card = (Fc.filter fun F => l F p < 0 ∧ IsFace R F).card + (Fc.filter fun F => 0 ≤ l F p ∧ IsFace R F).card := by
    rw [← Finset.card_union_of_disjoint]
    · congr 1
      ext G
      simp only [Finset.mem_filter, Finset.mem_union]
      constructor
      · rintro ⟨a, b⟩
        rcases lt_or_ge (l G p) 0 with c | c
        · exact .inl ⟨a, c, b⟩
        · exact .inr ⟨a, c, b⟩
      · rintro (⟨a, b, c⟩ | ⟨a, b, c⟩) <;> exact ⟨a, c⟩
    · rw [Finset.disjoint_left]
      intro G h1 h2
      rw [Finset.mem_filter] at h1 h2
      exact absurd h1.2.1 (not_lt.2 h2.2.1)
  have h3 : (Fc.filter fun F => l F p < 0 ∧ IsFace R F).card = 1 := by
    obtain ⟨k, hk⟩ := hR
    omega
  have h4 : (Fc.filter fun F => 0 ≤ l F p ∧ IsFace R F).card = 1 := by omega
  obtain ⟨G, hG⟩ := Finset.card_eq_one.1 h4
  obtain ⟨F0, hF0⟩ := Finset.card_eq_one.1 h3
  have hGm : G ∈ Fc.filter fun F => 0 ≤ l F p ∧ IsFace R F := by rw [hG]; simp
  rw [Finset.mem_filter] at hGm
  refine ⟨F, hF, hv, hf, ?_, G, hGm.1, hGm.2.1, hGm.2.2, ?_⟩
  · intro F' a b c
    have m1 : F' ∈ Fc.filter fun F => l F p < 0 ∧ IsFace R F := Finset.mem_filter.2 ⟨a, b, c⟩
    have m2 : F ∈ Fc.filter fun F => l F p < 0 ∧ IsFace R F := Finset.mem_filter.2 ⟨hF, hv, hf⟩
    rw [hF0, Finset.mem_singleton] at m1 m2
    rw [m1, m2]
  · intro G' a b c
    have m1 : G' ∈ Fc.filter fun F => 0 ≤ l F p ∧ IsFace R F := Finset.mem_filter.2 ⟨a, b, c⟩
    rwa [hG, Finset.mem_singleton] at m1

/-- the function of a new facet is not negative where the old functions are not -/
theorem new_nonneg {R : Finset E} (hR : R ∈ oddRidges (Fc.filter fun F => l F p < 0)) {F : Finset E} (hF : F ∈ Fc) (hv : l F p < 0) {q : E} (hq : q ∈ F)
    (hqR : F.erase q = R) {m : E →ᵃ[K] K} (hm : ∀ x ∈ insert p R, m x = 0) (hmq : 0 < m q) {x : E} (hx : ∀ G ∈ Fc, 0 ≤ l G x) : 0 ≤ m x := by
  obtain ⟨-, -, -, -, -, G, hG, gp, ⟨r, hr, hrR⟩, -⟩ := h.horizon hR
  obtain ⟨hpF, hS⟩ := h.full_insert hF hv.ne
  have hqS : q ∈ insert p F := Finset.mem_insert_of_mem hq
  have hqp : q ≠ p := fun e => hpF (e ▸ hq)
  have hSe : (insert p F).erase q = insert p R := by rw [Finset.erase_insert_of_ne (Ne.symm hqp), hqR]
  have hGq : 0 < l G q := by
    refine lt_of_le_of_ne (h.nonneg_facet hF hG hq) fun e => ?_
    obtain ⟨c, c1, c2⟩ := h.coplanar hF hG (by
      intro y hy
      by_cases hyq : y = q
      · rw [hyq, ← e]
      · exact h.zero G hG y (Finset.mem_of_mem_erase (hrR.symm ▸ hqR ▸ Finset.mem_erase.2 ⟨hyq, hy⟩)))
    have := c2 p
    have := mul_neg_of_pos_of_neg c1 hv
    linarith
  let n : E →ᵃ[K] K := l G p • l F - l F p • l G
  have hn : ∀ y, n y = l G p * l F y - l F p * l G y := fun y => rfl
  have hn0 : ∀ y ∈ (insert p F).erase q, n y = 0 := by
    rw [hSe]
    intro y hy
    rw [hn]
    rcases Finset.mem_insert.1 hy with rfl | hy
    · ring
    · rw [h.zero F hF y (Finset.mem_of_mem_erase (hqR.symm ▸ hy)), h.zero G hG y (Finset.mem_of_mem_erase (hrR.symm ▸ hy))]; ring
  have e1 := affine_eq_single hS n hqS hn0 x
  have e2 := affine_eq_single hS m hqS (by rw [hSe]; exact hm) x
  have hnq : 0 < n q := by
    rw [hn, h.zero F hF q hq, mul_zero, zero_sub]
    have := mul_neg_of_neg_of_pos hv hGq
    linarith
  have hnx : 0 ≤ n x := by
    rw [hn]
    have a := mul_nonneg gp (hx F hF)
    have b := mul_nonpos_of_nonpos_of_nonneg hv.le (hx G hG)
    linarith
  have hc : 0 ≤ crd K (insert p F) q x := by
    by_contra hc
    have := mul_neg_of_neg_of_pos (not_le.1 hc) hnq
    linarith
  rw [e2]
  exact mul_nonneg hc hmq.le

/-- adding a point in the space of the hull -/
theorem extend (p : E) {l' : Finset E → E →ᵃ[K] K} (hid : ∀ F ∈ Fc, 0 ≤ l F p → l' F = l F)
    (hnew : ∀ R ∈ oddRidges (Fc.filter fun F => l F p < 0), (∀ x ∈ insert p R, l' (insert p R) x = 0) ∧
      ∃ F ∈ Fc, l F p < 0 ∧ ∃ q ∈ F, F.erase q = R ∧ 0 < l' (insert p R) q) :
    IsHull (I ∪ (Fc.filter fun F => l F p < 0).image (insert p))
      ((Fc.filter fun F => 0 ≤ l F p) ∪ (oddRidges (Fc.filter fun F => l F p < 0)).image (insert p)) l' := by
  -- if a facet is visible then `p` is not a vertex
  have hpT : ∀ F ∈ Fc, l F p < 0 → ∀ T ∈ I, p ∉ T := fun F hF hv T hT hp => absurd (h.nonneg F hF T hT p hp) (not_le.2 hv)
  have hpF : ∀ F ∈ Fc, l F p < 0 → ∀ G ∈ Fc, p ∉ G := fun F hF hv G hG hp => absurd (h.nonneg_facet hG hF hp) (not_le.2 hv)
  have hpF' : ∀ F ∈ Fc, l F p < 0 → p ∉ F := fun F hF hv => hpF F hF hv F hF
  refine ⟨?_, ?_, ?_, ?_, ?_, ?_, ?_⟩
  · obtain ⟨T, hT⟩ := h.nonempty
    exact ⟨T, Finset.mem_union_left _ hT⟩
  · intro T hT
    rcases Finset.mem_union.1 hT with hT | hT
    · exact h.full T hT
    · obtain ⟨F, hF, rfl⟩ := Finset.mem_image.1 hT
      rw [Finset.mem_filter] at hF
      exact (h.full_insert hF.1 hF.2.ne).2
  · intro F hF x hx
    rcases Finset.mem_union.1 hF with hF | hF
    · rw [Finset.mem_filter] at hF
      rw [hid F hF.1 hF.2]
      exact h.zero F hF.1 x hx
    · obtain ⟨R, hR, rfl⟩ := Finset.mem_image.1 hF
      exact (hnew R hR).1 x hx
  · -- all the vertices are on the right sides
    intro F hF T hT x hx
    have hvert : (∀ G ∈ Fc, 0 ≤ l G x) ∨ x = p := by
      rcases Finset.mem_union.1 hT with hT | hT
      · exact .inl fun G hG => h.nonneg G hG T hT x hx
      · obtain ⟨G0, hG0, rfl⟩ := Finset.mem_image.1 hT
        rw [Finset.mem_filter] at hG0
        rcases Finset.mem_insert.1 hx with hx | hx
        · exact .inr hx
        · exact .inl fun G hG => h.nonneg_facet hG0.1 hG hx
    rcases Finset.mem_union.1 hF with hF | hF
    · rw [Finset.mem_filter] at hF
      rw [hid F hF.1 hF.2]
      rcases hvert with hv | rfl
      · exact hv F hF.1
      · exact hF.2
    · obtain ⟨R, hR, rfl⟩ := Finset.mem_image.1 hF
      obtain ⟨hz, F, hF, hv, q, hq, hqR, hpos⟩ := hnew R hR
      rcases hvert with hx | rfl
      · exact h.new_nonneg hR hF hv hq hqR hz hpos hx
      · rw [hz _ (Finset.mem_insert_self _ _)]
  · intro F hF
    rcases Finset.mem_union.1 hF with hF | hF
    · rw [Finset.mem_filter] at hF
      rw [hid F hF.1 hF.2]
      exact h.ne F hF.1
    · obtain ⟨R, hR, rfl⟩ := Finset.mem_image.1 hF
      obtain ⟨-, F, -, -, q, -, -, hpos⟩ := hnew R hR
      exact ⟨q, hpos.ne'⟩
  · -- the boundary
    intro R
    rcases (Fc.filter fun F => l F p < 0).eq_empty_or_nonempty with he | ⟨F0, hF0⟩
    · have he2 : Fc.filter (fun F => 0 ≤ l F p) = Fc := by
        rw [Finset.filter_eq_self]
        intro F hF
        by_contra hn
        have : F ∈ Fc.filter fun F => l F p < 0 := Finset.mem_filter.2 ⟨hF, not_le.1 hn⟩
        rw [he] at this
        simp at this
      rw [he, he2]
      simp only [oddRidges, Finset.biUnion_empty, Finset.filter_empty, Finset.image_empty, Finset.union_empty]
      exact h.chain R
    rw [Finset.mem_filter] at hF0
    have hnoT := hpT F0 hF0.1 hF0.2
    have hnoF := hpF F0 hF0.1 hF0.2
    have hcard : ((I ∪ (Fc.filter fun F => l F p < 0).image (insert p)).filter (IsFace R)).card =
        (I.filter (IsFace R)).card + ((Fc.filter fun F => l F p < 0).filter fun F => IsFace R (insert p F)).card := by
      rw [Finset.filter_union, Finset.card_union_of_disjoint]
      · congr 1
        rw [Finset.filter_image, Finset.card_image_of_injOn]
        intro F hF G hG e
        simp only [Finset.coe_filter, Set.mem_setOf_eq, Finset.mem_filter] at hF hG
        have := congrArg (fun s : Finset E => s.erase p) e
        simpa [Finset.erase_insert (hnoF F hF.1.1), Finset.erase_insert (hnoF G hG.1.1)] using this
      · rw [Finset.disjoint_left]
        intro T h1 h2
        rw [Finset.mem_filter] at h1 h2
        obtain ⟨F, hF, rfl⟩ := Finset.mem_image.1 h2.1
        exact hnoT _ h1.1 (Finset.mem_insert_self _ _)
    rw [hcard]
    by_cases hpR : p ∈ R
    · have e1 : I.filter (IsFace R) = ∅ := by
        rw [Finset.filter_eq_empty_iff]
        intro T hT hf
        exact hnoT T hT (hf.subset hpR)
      have e2 : ((Fc.filter fun F => l F p < 0).filter fun F => IsFace R (insert p F)) = (Fc.filter fun F => l F p < 0).filter (IsFace (R.erase p)) := by
        apply Finset.filter_congr
        intro F hF
        rw [Finset.mem_filter] at hF
        rw [isFace_insert (hnoF F hF.1)]
        constructor
        · rintro (rfl | hh)
          · exact absurd hpR (hnoF R hF.1)
          · exact hh.2
        · exact fun hh => .inr ⟨hpR, hh⟩
      rw [e1, e2, Finset.card_empty, zero_add, ← mem_oddRidges, Finset.mem_union, Finset.mem_image, Finset.mem_filter]
      constructor
      · rintro (⟨hh, -⟩ | ⟨R', hR', rfl⟩)
        · exact absurd hpR (hnoF R hh)
        · have : p ∉ R' := by
            obtain ⟨F, hF, -, hf, -⟩ := h.horizon hR'
            exact fun hh => hnoF F hF (hf.subset hh)
          rwa [Finset.erase_insert this]
      · intro hh
        exact .inr ⟨R.erase p, hh, Finset.insert_erase hpR⟩
    · have e2 : ((Fc.filter fun F => l F p < 0).filter fun F => IsFace R (insert p F)) = (Fc.filter fun F => l F p < 0).filter (fun F => F = R) := by
        apply Finset.filter_congr
        intro F hF
        rw [Finset.mem_filter] at hF
        rw [isFace_insert (hnoF F hF.1)]
        constructor
        · rintro (rfl | hh)
          · rfl
          · exact absurd hh.1 hpR
        · exact fun hh => .inl hh.symm
      rw [e2, Finset.filter_eq']
      have e3 : R ∈ (Fc.filter fun F => 0 ≤ l F p) ∪ (oddRidges (Fc.filter fun F => l F p < 0)).image (insert p) ↔ R ∈ Fc ∧ 0 ≤ l R p := by
        rw [Finset.mem_union, Finset.mem_image, Finset.mem_filter]
        constructor
        · rintro (hh | ⟨R', -, rfl⟩)
          · exact hh
          · exact absurd (Finset.mem_insert_self _ _) hpR
        · exact .inl
      rw [e3, h.chain R]
      by_cases hRF : R ∈ Fc.filter fun F => l F p < 0
      · rw [if_pos hRF, Finset.card_singleton]
        rw [Finset.mem_filter] at hRF
        have ho := (h.chain R).1 hRF.1
        constructor
        · exact fun hh => absurd hRF.2 (not_lt.2 hh.2)
        · intro hh
          exact absurd (Odd.add_odd ho odd_one) (Nat.not_even_iff_odd.2 hh)
      · rw [if_neg hRF, Finset.card_empty, add_zero]
        constructor
        · exact fun hh => hh.1
        · intro hh
          refine ⟨hh, ?_⟩
          by_contra hn
          exact hRF (Finset.mem_filter.2 ⟨(h.chain R).2 hh, not_le.1 hn⟩)
  · -- the simplices do not overlap
    have hold : ∀ F ∈ Fc, l F p < 0 → ∀ T ∈ I, ∀ x, Inside K (insert p F) x → ¬ Inside K T x := by
      intro F hF hv T hT x h1 h2
      obtain ⟨hpn, hS⟩ := h.full_insert hF hv.ne
      have e := affine_eq_single hS (l F) (Finset.mem_insert_self p F) (by rw [Finset.erase_insert hpn]; exact h.zero F hF) x
      have h3 := h.inside_pos hF hT h2
      have h4 := mul_neg_of_pos_of_neg (h1 p (Finset.mem_insert_self _ _)) hv
      linarith
    have hnew2 : ∀ F ∈ Fc, l F p < 0 → ∀ F' ∈ Fc, l F' p < 0 → ∀ x, Inside K (insert p F) x → Inside K (insert p F') x → F = F' := by
      -- the point of the facet on the ray from `p` through `x`
      have hproj : ∀ F ∈ Fc, l F p < 0 → ∀ x, Inside K (insert p F) x → ∃ s z, 0 < s ∧ x = AffineMap.lineMap z p s ∧ l F x = s * l F p ∧
          (F.Nonempty → s < 1 ∧ (∀ T ∈ I, ∀ i ∈ T, T.erase i = F → crd K T i z = 0 ∧ ∀ j ∈ F, 0 < crd K T j z) ∧ ∀ G ∈ Fc, 0 ≤ l G z) := by
        intro F hF hv x hx
        obtain ⟨hpn, hS⟩ := h.full_insert hF hv.ne
        have hpS := Finset.mem_insert_self p F
        have e := affine_eq_single hS (l F) hpS (by rw [Finset.erase_insert hpn]; exact h.zero F hF) x
        set s := crd K (insert p F) p x with hs
        have hs0 : 0 < s := hx p hpS
        rcases F.eq_empty_or_nonempty with he | hne
        · subst he
          refine ⟨s, x, hs0, ?_, e, fun hh => absurd hh (by simp)⟩
          have hc := crd_comb hS x
          have h1 := crd_sum hS x
          simp only [insert_empty_eq, Finset.sum_singleton] at hc h1
          have : s = 1 := by rw [hs]; simpa using h1
          rw [this, AffineMap.lineMap_apply_one]
          rw [h1, one_smul] at hc
          exact hc.symm
        have hsum := crd_sum hS x
        have hcomb := crd_comb hS x
        rw [Finset.sum_insert hpn] at hsum hcomb
        have hs1 : s < 1 := by
          have : 0 < ∑ j ∈ F, crd K (insert p F) j x := Finset.sum_pos (fun j hj => hx j (Finset.mem_insert_of_mem hj)) hne
          rw [← hsum]; linarith
        have hs2 : (0 : K) < 1 - s := by linarith
        let w : E → K := fun j => (1 - s)⁻¹ * crd K (insert p F) j x
        have hw0 : ∀ j ∈ F, 0 < w j := fun j hj => mul_pos (inv_pos.2 hs2) (hx j (Finset.mem_insert_of_mem hj))
        have hw1 : ∑ j ∈ F, w j = 1 := by
          rw [← Finset.mul_sum]
          have : ∑ j ∈ F, crd K (insert p F) j x = 1 - s := by linarith
          rw [this, inv_mul_cancel₀ hs2.ne']
        let z := ∑ j ∈ F, w j • j
        have hz : z = (1 - s)⁻¹ • (x - s • p) := by
          have : ∑ j ∈ F, crd K (insert p F) j x • j = x - s • p := by rw [eq_sub_iff_add_eq, add_comm]; exact hcomb
          rw [← this, Finset.smul_sum]
          exact Finset.sum_congr rfl fun j _ => by simp only [w]; rw [smul_smul]
        refine ⟨s, z, hs0, ?_, e, fun _ => ⟨hs1, ?_, ?_⟩⟩
        · rw [AffineMap.lineMap_apply_module, hz, smul_smul, mul_inv_cancel₀ hs2.ne', one_smul]; simp
        · intro T hT i hi he
          have hf := h.full T hT
          have hiF : i ∉ F := by rw [← he]; simp
          let w' : E → K := fun j => if j = i then 0 else w j
          have hw' : ∀ j ∈ F, w' j = w j := by
            intro j hj
            exact if_neg fun (e : j = i) => hiF (e ▸ hj)
          have g1 : ∑ j ∈ T, w' j = 1 := by
            rw [← Finset.add_sum_erase T _ hi, he, Finset.sum_congr rfl hw', hw1]; simp [w']
          have g2 : ∑ j ∈ T, w' j • j = z := by
            rw [← Finset.add_sum_erase T _ hi, he, Finset.sum_congr rfl fun j hj => by rw [hw' j hj]]
            simp [w', z]
          refine ⟨by rw [crd_unique hf g1 g2 hi]; simp [w'], fun j hj => ?_⟩
          rw [crd_unique hf g1 g2 (Finset.mem_of_mem_erase (he.symm ▸ hj)), hw' j hj]
          exact hw0 j hj
        · intro G hG
          simp only [z]
          rw [affine_comb _ _ _ hw1]
          exact Finset.sum_nonneg fun j hj => mul_nonneg (hw0 j hj).le (h.nonneg_facet hF hG hj)
      intro F hF hv F' hF' hv' x hx hx'
      obtain ⟨s, z, s0, sx, sl, sF⟩ := hproj F hF hv x hx
      obtain ⟨s', z', s0', sx', sl', sF'⟩ := hproj F' hF' hv' x hx'
      have hcF : F.card = F'.card := by
        obtain ⟨T, hT, i, hi, he⟩ := h.facet hF
        obtain ⟨T', hT', i', hi', he'⟩ := h.facet hF'
        rw [← he, ← he', Finset.card_erase_of_mem hi, Finset.card_erase_of_mem hi', (h.full T hT).card, (h.full T' hT').card]
      rcases F.eq_empty_or_nonempty with hFe | hne
      · rw [hFe, Finset.card_empty] at hcF
        rw [hFe, Finset.card_eq_zero.1 hcF.symm]
      have hne' : F'.Nonempty := Finset.card_pos.1 (by rw [← hcF]; exact Finset.card_pos.2 hne)
      obtain ⟨s1, sT, sH⟩ := sF hne
      obtain ⟨s1', sT', sH'⟩ := sF' hne'
      have hle : ∀ {F F' : Finset E} {s s' : K} {z : E}, l F' p < 0 → x = AffineMap.lineMap z p s → s < 1 → 0 ≤ l F' z → l F' x = s' * l F' p → s' ≤ s := by
        intro F F' s s' z hv' sx s1 hz hx
        have e := congrArg (l F') sx
        rw [affine_line, hx] at e
        by_contra hn
        rw [not_le] at hn
        have a := mul_lt_mul_of_neg_right hn hv'
        have b := mul_nonneg (show 0 ≤ 1 - s by linarith) hz
        linarith
      have hss : s = s' := le_antisymm (hle (F := F) hv sx' s1' (sH' F hF) sl) (hle (F := F) hv' sx s1 (sH F' hF') sl')
      have hzz : z = z' := by
        have e : AffineMap.lineMap z p s = AffineMap.lineMap z' p s := by rw [← sx, sx', hss]
        simp only [AffineMap.lineMap_apply_module, add_left_inj] at e
        exact smul_right_injective E (show (1 - s) ≠ 0 by linarith) e
      obtain ⟨T, hT, i, hi, he⟩ := h.facet hF
      obtain ⟨T', hT', i', hi', he'⟩ := h.facet hF'
      obtain ⟨a1, a2⟩ := sT T hT i hi he
      obtain ⟨b1, b2⟩ := sT' T' hT' i' hi' he'
      exact h.facet_disj hF hF' hT hi he hT' hi' he' a1 a2 (hzz ▸ b1) (hzz ▸ b2)
    intro T hT T' hT' x hx hx'
    rcases Finset.mem_union.1 hT with hT | hT <;> rcases Finset.mem_union.1 hT' with hT' | hT'
    · exact h.disj T hT T' hT' x hx hx'
    · obtain ⟨F, hF, rfl⟩ := Finset.mem_image.1 hT'
      rw [Finset.mem_filter] at hF
      exact absurd hx (hold F hF.1 hF.2 T hT x hx')
    · obtain ⟨F, hF, rfl⟩ := Finset.mem_image.1 hT
      rw [Finset.mem_filter] at hF
      exact absurd hx' (hold F hF.1 hF.2 T' hT' x hx)
    · obtain ⟨F, hF, rfl⟩ := Finset.mem_image.1 hT
      obtain ⟨F', hF', rfl⟩ := Finset.mem_image.1 hT'
      rw [Finset.mem_filter] at hF hF'
      rw [hnew2 F hF.1 hF.2 F' hF'.1 hF'.2 x hx hx']

end IsHull
end

end Verif.Geometry
