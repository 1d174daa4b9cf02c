import Verif.Proofs.HullComplete
import Mathlib.Algebra.BigOperators.Ring.Nat
import Mathlib.Combinatorics.Enumerative.DoubleCounting

/-! # Every ridge of a triangulated convex hull belongs to two facets -/

namespace Verif.Geometry

open Classical

section
variable {E : Type}

theorem IsFace.subset {R T : Finset E} (h : IsFace R T) : R ⊆ T := by
  obtain ⟨i, -, rfl⟩ := h
  exact Finset.erase_subset _ _

/-- between a simplex and one of its ridges there are two facets, or none if it is not a ridge -/
theorem even_between (R T : Finset E) (s : Finset (Finset E)) (hs : ∀ F, IsFace F T → F ∈ s) :
    Even (s.filter fun F => IsFace R F ∧ IsFace F T).card := by
  rcases (s.filter fun F => IsFace R F ∧ IsFace F T).eq_empty_or_nonempty with e | ⟨F, hF⟩
  · rw [e]; simp
  · rw [Finset.mem_filter] at hF
    obtain ⟨-, ⟨j, hj, hR⟩, i, hi, rfl⟩ := hF
    have hji := Finset.ne_of_mem_erase hj
    have hjT := Finset.mem_of_mem_erase hj
    have : (s.filter fun F => IsFace R F ∧ IsFace F T) = {T.erase i, T.erase j} := by
      ext G
      rw [Finset.mem_filter, Finset.mem_insert, Finset.mem_singleton]
      constructor
      · rintro ⟨-, ⟨j', hj', hR'⟩, i', hi', rfl⟩
        have : i' ∉ R := by rw [← hR']; simp
        rw [← hR] at this
        by_cases h1 : i' = i
        · exact .inl (by rw [h1])
        · by_cases h2 : i' = j
          · exact .inr (by rw [h2])
          · exact absurd (Finset.mem_erase.2 ⟨h2, Finset.mem_erase.2 ⟨h1, hi'⟩⟩) this
      · rintro (rfl | rfl)
        · exact ⟨hs _ ⟨i, hi, rfl⟩, ⟨j, hj, hR⟩, i, hi, rfl⟩
        · exact ⟨hs _ ⟨j, hjT, rfl⟩, ⟨i, Finset.mem_erase.2 ⟨Ne.symm hji, hi⟩, by rw [Finset.erase_right_comm]; exact hR⟩, j, hjT, rfl⟩
    rw [this, Finset.card_pair]
    · exact even_two
    · intro e
      have : j ∈ T.erase j := e ▸ hj
      simp at this

end

section
variable {K E : Type} [Field K] [LinearOrder K] [IsStrictOrderedRing K] [AddCommGroup E] [Module K E] [FiniteDimensional K E]

omit [LinearOrder K] [IsStrictOrderedRing K] in
/-- an affine function that vanishes at all vertices but two -/
theorem affine_eq_two {T : Finset E} (h : Full K T) (l : E →ᵃ[K] K) {i j : E} (hi : i ∈ T) (hj : j ∈ T.erase i)
    (hl : ∀ k ∈ (T.erase i).erase j, l k = 0) (x : E) : l x = crd K T i x * l i + crd K T j x * l j := by
  rw [affine_eq h l x, ← Finset.add_sum_erase T _ hi, ← Finset.add_sum_erase _ _ hj, Finset.sum_eq_zero, add_zero]
  intro k hk
  rw [hl k hk, mul_zero]

/-- a point on the boundary pushed inside -/
theorem push_inside {T : Finset E} {z y : E} (hzy : ∀ j ∈ T, 0 < crd K T j z ∨ (crd K T j z = 0 ∧ 0 < crd K T j y)) :
    ∃ δ : K, 0 < δ ∧ ∀ ε, 0 < ε → ε < δ → Inside K T (AffineMap.lineMap z y ε) := by
  obtain ⟨δ, d1, -, d3⟩ := exists_small (T.filter fun j => 0 < crd K T j z) (fun j => crd K T j z) (fun j => crd K T j y) (fun j hj =>
    (Finset.mem_filter.1 hj).2)
  refine ⟨δ, d1, fun ε e1 e2 j hj => ?_⟩
  rw [affine_line]
  rcases hzy j hj with h1 | ⟨h1, h2⟩
  · exact d3 ε e1 e2 j (Finset.mem_filter.2 ⟨hj, h1⟩)
  · rw [h1, mul_zero, zero_add]; exact mul_pos e1 h2

namespace IsHull
variable {I Fc : Finset (Finset E)} {l : Finset E → E →ᵃ[K] K} (h : IsHull I Fc l)
include h

/-- every ridge belongs to an even number of facets -/
theorem ridge_even (R : Finset E) : Even (Fc.filter (IsFace R)).card := by
  let s : Finset (Finset E) := I.biUnion fun T => T.image fun i => T.erase i
  have hs : ∀ T ∈ I, ∀ F, IsFace F T → F ∈ s := by
    rintro T hT F ⟨i, hi, rfl⟩
    exact Finset.mem_biUnion.2 ⟨T, hT, Finset.mem_image.2 ⟨i, hi, rfl⟩⟩
  have e : Fc.filter (IsFace R) = (s.filter (IsFace R)).filter fun F => Odd (I.filter (IsFace F)).card := by
    ext F
    simp only [Finset.mem_filter]
    rw [h.chain F]
    constructor
    · rintro ⟨h1, h2⟩
      refine ⟨⟨?_, h2⟩, h1⟩
      obtain ⟨T, hT⟩ := Finset.card_pos.1 h1.pos
      rw [Finset.mem_filter] at hT
      exact hs T hT.1 F hT.2
    · rintro ⟨⟨-, h1⟩, h2⟩; exact ⟨h2, h1⟩
  rw [e, ← Nat.not_odd_iff_even, ← Finset.odd_sum_iff_odd_card_odd, Nat.not_odd_iff_even]
  have e2 : ∑ F ∈ s.filter (IsFace R), (I.filter (IsFace F)).card = ∑ T ∈ I, (s.filter fun F => IsFace R F ∧ IsFace F T).card := by
    have := Finset.sum_card_bipartiteAbove_eq_sum_card_bipartiteBelow (s := s.filter (IsFace R)) (t := I) (fun F T => IsFace F T)
    unfold Finset.bipartiteAbove Finset.bipartiteBelow at this
    rw [this]
    apply Finset.sum_congr rfl
    intro T hT
    rw [Finset.filter_filter]
  rw [e2]
  exact Finset.even_sum _ fun T hT => even_between R T s (hs T hT)

/-- two facets in the same hyperplane on the same side of a common ridge are equal -/
theorem facet_unique {F1 F2 : Finset E} (h1 : F1 ∈ Fc) (h2 : F2 ∈ Fc) {q1 q2 : E} (hq1 : q1 ∈ F1) (hq2 : q2 ∈ F2)
    (hR : F1.erase q1 = F2.erase q2) (hc : l F2 q1 = 0) {T2 : Finset E} (hT2 : T2 ∈ I) {i2 : E} (hi2 : i2 ∈ T2) (he2 : T2.erase i2 = F2)
    (hs : 0 < crd K T2 q2 q1) : F1 = F2 := by
  obtain ⟨T1, hT1, i1, hi1, he1⟩ := h.facet h1
  have f1 := h.full T1 hT1
  have f2 := h.full T2 hT2
  obtain ⟨p2, k2⟩ := h.facet_fun h2 hT2 hi2 he2
  have hq1T : q1 ∈ T1 := Finset.mem_of_mem_erase (he1 ▸ hq1)
  have hq2T : q2 ∈ T2 := Finset.mem_of_mem_erase (he2 ▸ hq2)
  have hq1i : q1 ≠ i1 := Finset.ne_of_mem_erase (he1.symm ▸ hq1)
  have hq2i : q2 ≠ i2 := Finset.ne_of_mem_erase (he2.symm ▸ hq2)
  -- `i1` is not in the hyperplane
  have hi1p : 0 < l F2 i1 := by
    refine lt_of_le_of_ne (h.nonneg F2 h2 T1 hT1 i1 hi1) fun e => ?_
    obtain ⟨x, hx⟩ := h.ne F2 h2
    apply hx
    apply affine_ext_zero f1 _ (fun j hj => ?_) x
    by_cases hji : j = i1
    · rw [hji, ← e]
    · by_cases hjq : j = q1
      · rw [hjq, hc]
      · apply h.zero F2 h2
        apply Finset.mem_of_mem_erase (a := q2)
        rw [← hR, ← he1]
        exact Finset.mem_erase.2 ⟨hjq, Finset.mem_erase.2 ⟨hji, hj⟩⟩
  have hci1 : 0 < crd K T2 i2 i1 := by
    have := k2 i1
    by_contra hn
    have := mul_nonpos_of_nonpos_of_nonneg (not_lt.1 hn) p2.le
    linarith
  have hcq1 : crd K T2 i2 q1 = 0 := by
    have := k2 q1
    rw [hc] at this
    exact (mul_eq_zero.1 this.symm).resolve_right p2.ne'
  -- the direction
  obtain ⟨η, η1, η2, η3⟩ : ∃ η : K, 0 < η ∧ η < 1 ∧ 0 < (1 - η) * crd K T2 q2 q1 + η * crd K T2 q2 i1 := by
    obtain ⟨δ, d1, d2, d3⟩ := exists_small {()} (fun _ => crd K T2 q2 q1) (fun _ => crd K T2 q2 i1) (fun _ _ => hs)
    obtain ⟨η, η1, η2⟩ := exists_between d1
    exact ⟨η, η1, by linarith, d3 η η1 η2 () (by simp)⟩
  set y := AffineMap.lineMap q1 i1 η with hy
  have R1 : ∀ j ∈ T1, j = i1 ∨ j = q1 ∨ j ∈ F1.erase q1 := by
    intro j hj
    by_cases hji : j = i1
    · exact .inl hji
    · by_cases hjq : j = q1
      · exact .inr (.inl hjq)
      · exact .inr (.inr (Finset.mem_erase.2 ⟨hjq, he1 ▸ Finset.mem_erase.2 ⟨hji, hj⟩⟩))
  have R2 : ∀ j ∈ T2, j = i2 ∨ j = q2 ∨ j ∈ F1.erase q1 := by
    intro j hj
    by_cases hji : j = i2
    · exact .inl hji
    · by_cases hjq : j = q2
      · exact .inr (.inl hjq)
      · exact .inr (.inr (by rw [hR]; exact Finset.mem_erase.2 ⟨hjq, he2 ▸ Finset.mem_erase.2 ⟨hji, hj⟩⟩))
  have hRT1 : ∀ j ∈ F1.erase q1, j ∈ T1 := fun j hj => Finset.mem_of_mem_erase (he1.symm ▸ Finset.mem_of_mem_erase hj)
  have hRT2 : ∀ j ∈ F1.erase q1, j ∈ T2 := fun j hj => Finset.mem_of_mem_erase (he2.symm ▸ Finset.mem_of_mem_erase (hR ▸ hj))
  have hRi1 : ∀ j ∈ F1.erase q1, j ≠ i1 := fun j hj => Finset.ne_of_mem_erase (he1.symm ▸ Finset.mem_of_mem_erase hj)
  have hRi2 : ∀ j ∈ F1.erase q1, j ≠ i2 := fun j hj => Finset.ne_of_mem_erase (he2.symm ▸ Finset.mem_of_mem_erase (hR ▸ hj))
  have hRq2 : ∀ j ∈ F1.erase q1, j ≠ q2 := fun j hj => Finset.ne_of_mem_erase (hR ▸ hj)
  have y1 : 0 < crd K T1 i1 y := by
    rw [hy, affine_line, crd_self f1 hi1, crd_ne f1 hi1 hq1T (Ne.symm hq1i)]; simpa using η1
  have y2 : 0 < crd K T1 q1 y := by
    rw [hy, affine_line, crd_self f1 hq1T, crd_ne f1 hq1T hi1 hq1i]; simpa using η2
  have y3 : 0 < crd K T2 i2 y := by
    rw [hy, affine_line, hcq1, mul_zero, zero_add]; exact mul_pos η1 hci1
  have y4 : 0 < crd K T2 q2 y := by
    rw [hy, affine_line]; exact η3
  have hTT : T1 = T2 := by
    by_cases hRe : F1.erase q1 = ∅
    · -- the ridge is empty
      have e1 : Inside K T1 y := by
        intro j hj
        rcases R1 j hj with rfl | rfl | hj
        · exact y1
        · exact y2
        · rw [hRe] at hj; simp at hj
      have e2 : Inside K T2 y := by
        intro j hj
        rcases R2 j hj with rfl | rfl | hj
        · exact y3
        · exact y4
        · rw [hRe] at hj; simp at hj
      exact h.disj T1 hT1 T2 hT2 y e1 e2
    · -- the centre of the ridge
      have hRc : (0 : K) < (F1.erase q1).card := by exact_mod_cast Finset.card_pos.2 (Finset.nonempty_iff_ne_empty.2 hRe)
      let w : E → K := fun k => if k ∈ F1.erase q1 then ((F1.erase q1).card : K)⁻¹ else 0
      let z := ∑ k ∈ F1.erase q1, ((F1.erase q1).card : K)⁻¹ • k
      have hwT : ∀ T : Finset E, F1.erase q1 ⊆ T → ∑ k ∈ T, w k = 1 ∧ ∑ k ∈ T, w k • k = z := by
        intro T hT
        constructor
        · rw [← Finset.sum_subset hT fun k _ hk => if_neg hk, Finset.sum_congr rfl fun k hk => if_pos hk, Finset.sum_const, nsmul_eq_mul,
            mul_inv_cancel₀ hRc.ne']
        · rw [← Finset.sum_subset hT fun k _ hk => by simp only [w]; rw [if_neg hk, zero_smul]]
          exact Finset.sum_congr rfl fun k hk => by simp only [w]; rw [if_pos hk]
      have hz : ∀ T : Finset E, Full K T → F1.erase q1 ⊆ T → ∀ j ∈ T, crd K T j z = w j := by
        intro T hf hT j hj
        obtain ⟨a, b⟩ := hwT T hT
        exact crd_unique hf a b hj
      obtain ⟨δ1, d1, d2⟩ := push_inside (T := T1) (z := z) (y := y) (by
        intro j hj
        rw [hz T1 f1 hRT1 j hj]
        by_cases hjR : j ∈ F1.erase q1
        · left; simp only [w]; rw [if_pos hjR]; exact inv_pos.2 hRc
        · right
          refine ⟨if_neg hjR, ?_⟩
          rcases R1 j hj with rfl | rfl | hj
          · exact y1
          · exact y2
          · exact absurd hj hjR)
      obtain ⟨δ2, d3, d4⟩ := push_inside (T := T2) (z := z) (y := y) (by
        intro j hj
        rw [hz T2 f2 hRT2 j hj]
        by_cases hjR : j ∈ F1.erase q1
        · left; simp only [w]; rw [if_pos hjR]; exact inv_pos.2 hRc
        · right
          refine ⟨if_neg hjR, ?_⟩
          rcases R2 j hj with rfl | rfl | hj
          · exact y3
          · exact y4
          · exact absurd hj hjR)
      obtain ⟨ε, e1, e2⟩ := exists_between (lt_min d1 d3)
      exact h.disj T1 hT1 T2 hT2 _ (d2 ε e1 (e2.trans_le (min_le_left _ _))) (d4 ε e1 (e2.trans_le (min_le_right _ _)))
  -- both facets are the face of the common simplex in the hyperplane
  subst hTT
  have : i1 = i2 := by
    by_contra hne
    exact absurd (h.zero F2 h2 i1 (he2 ▸ Finset.mem_erase.2 ⟨hne, hi1⟩)) hi1p.ne'
  rw [← he1, ← he2, this]

/-- a ridge belongs to at most two facets -/
theorem ridge_le (R : Finset E) : (Fc.filter (IsFace R)).card ≤ 2 := by
  by_contra hn
  rw [not_le, Finset.two_lt_card_iff] at hn
  obtain ⟨F1, F2, F3, m1, m2, m3, n12, n13, n23⟩ := hn
  rw [Finset.mem_filter] at m1 m2 m3
  obtain ⟨hF1, q1, hq1, hR1⟩ := m1
  obtain ⟨hF2, q2, hq2, hR2⟩ := m2
  obtain ⟨hF3, q3, hq3, hR3⟩ := m3
  obtain ⟨T, hT, i, hi, he⟩ := h.facet hF2
  have f := h.full T hT
  have hq2e : q2 ∈ T.erase i := by rw [he]; exact hq2
  have hq2T : q2 ∈ T := Finset.mem_of_mem_erase hq2e
  obtain ⟨p2, k2⟩ := h.facet_fun hF2 hT hi he
  -- the two coordinates transverse to the ridge
  have two : ∀ m : E →ᵃ[K] K, (∀ k ∈ R, m k = 0) → ∀ x, m x = crd K T i x * m i + crd K T q2 x * m q2 := by
    intro m hm x
    refine affine_eq_two f m hi hq2e (fun k hk => hm k ?_) x
    rw [he, hR2] at hk; exact hk
  have zeroR : ∀ F q, F ∈ Fc → F.erase q = R → ∀ k ∈ R, l F k = 0 := fun F q hF hR k hk => h.zero F hF k (Finset.mem_of_mem_erase (hR ▸ hk))
  -- facts about each of the two other facets
  have key : ∀ F q, F ∈ Fc → q ∈ F → F.erase q = R → F ≠ F2 →
      0 ≤ crd K T i q ∧ crd K T q2 q ≤ 0 ∧ (crd K T i q ≠ 0 ∨ crd K T q2 q ≠ 0) ∧ ∃ c, 0 < c ∧ l F i = -c * crd K T q2 q ∧ l F q2 = c * crd K T i q := by
    intro F q hF hq hR hne
    have ha : 0 ≤ crd K T i q := by
      obtain ⟨T', hT', i', hi', he'⟩ := h.facet hF
      have h1 := h.nonneg F2 hF2 T' hT' q (Finset.mem_of_mem_erase (he'.symm ▸ hq))
      rw [k2 q] at h1
      by_contra hn
      have := mul_neg_of_neg_of_pos (not_le.1 hn) p2
      linarith
    have hal : 0 ≤ l F i := h.nonneg F hF T hT i hi
    have hbl : 0 ≤ l F q2 := h.nonneg F hF T hT q2 hq2T
    have hz := two (l F) (zeroR F q hF hR) q
    rw [h.zero F hF q hq] at hz
    have hnz : l F i ≠ 0 ∨ l F q2 ≠ 0 := by
      by_contra hh
      push Not at hh
      obtain ⟨x, hx⟩ := h.ne F hF
      exact hx (by rw [two (l F) (zeroR F q hF hR) x, hh.1, hh.2]; simp)
    have hnq : crd K T i q ≠ 0 ∨ crd K T q2 q ≠ 0 := by
      by_contra hh
      push Not at hh
      obtain ⟨T', hT', i', hi', he'⟩ := h.facet hF
      have f' := h.full T' hT'
      have hqT' : q ∈ T' := Finset.mem_of_mem_erase (he'.symm ▸ hq)
      have h1 := two (crd K T' q) (fun k hk => crd_ne f' hqT' (Finset.mem_of_mem_erase (he'.symm ▸ Finset.mem_of_mem_erase (hR.symm ▸ hk)))
        (by rw [← hR] at hk; exact (Finset.ne_of_mem_erase hk).symm)) q
      rw [hh.1, hh.2, crd_self f' hqT'] at h1
      simp at h1
    have hb : crd K T q2 q ≤ 0 := by
      by_contra hb
      rw [not_le] at hb
      rcases ha.lt_or_eq with ha' | ha'
      · rcases hal.lt_or_eq with h1 | h1
        · have := mul_pos ha' h1
          have := mul_nonneg hb.le hbl
          linarith
        · rcases hbl.lt_or_eq with h2 | h2
          · have := mul_pos hb h2
            have := mul_nonneg ha'.le hal
            linarith
          · rcases hnz with hh | hh
            · exact hh h1.symm
            · exact hh h2.symm
      · -- the same hyperplane and the same side
        apply hne
        exact h.facet_unique hF hF2 hq hq2 (hR.trans hR2.symm) (by rw [k2, ← ha', zero_mul]) hT hi he hb
    refine ⟨ha, hb, hnq, ?_⟩
    rcases ha.lt_or_eq with ha' | ha'
    · refine ⟨l F q2 / crd K T i q, ?_, ?_, ?_⟩
      · refine div_pos (lt_of_le_of_ne hbl fun e => ?_) ha'
        rw [← e, mul_zero, add_zero] at hz
        rcases mul_eq_zero.1 hz.symm with hh | hh
        · exact ha'.ne' hh
        · rcases hnz with h3 | h3
          · exact h3 hh
          · exact h3 e.symm
      · field_simp
        linarith
      · field_simp
    · have hb' : crd K T q2 q < 0 := lt_of_le_of_ne hb (by rcases hnq with hh | hh; exact absurd ha'.symm hh; exact hh)
      have hl2 : l F q2 = 0 := by
        rw [← ha', zero_mul, zero_add] at hz
        exact (mul_eq_zero.1 hz.symm).resolve_left hb'.ne
      refine ⟨l F i / -crd K T q2 q, ?_, ?_, ?_⟩
      · refine div_pos (lt_of_le_of_ne hal fun e => ?_) (by linarith)
        rcases hnz with h3 | h3
        · exact h3 e.symm
        · exact h3 hl2
      · have : crd K T q2 q ≠ 0 := hb'.ne
        field_simp
      · rw [hl2, ← ha', mul_zero]
  obtain ⟨a1, b1, z1, c1, hc1, u1, w1⟩ := key F1 q1 hF1 hq1 hR1 n12
  obtain ⟨a3, b3, z3, c3, hc3, u3, w3⟩ := key F3 q3 hF3 hq3 hR3 (Ne.symm n23)
  obtain ⟨T1, hT1, i1, hi1, he1⟩ := h.facet hF1
  obtain ⟨T3, hT3, i3, hi3, he3⟩ := h.facet hF3
  have f1 := h.full T1 hT1
  have hq1T1 : q1 ∈ T1 := Finset.mem_of_mem_erase (he1.symm ▸ hq1)
  have x13 := h.nonneg F1 hF1 T3 hT3 q3 (Finset.mem_of_mem_erase (he3.symm ▸ hq3))
  have x31 := h.nonneg F3 hF3 T1 hT1 q1 hq1T1
  rw [two (l F1) (zeroR F1 q1 hF1 hR1) q3, u1, w1] at x13
  rw [two (l F3) (zeroR F3 q3 hF3 hR3) q1, u3, w3] at x31
  set A1 := crd K T i q1
  set B1 := crd K T q2 q1
  set A3 := crd K T i q3
  set B3 := crd K T q2 q3
  have y1 : 0 ≤ A1 * B3 - A3 * B1 := by
    have : A3 * (-c1 * B1) + B3 * (c1 * A1) = c1 * (A1 * B3 - A3 * B1) := by ring
    rw [this] at x13
    exact nonneg_of_mul_nonneg_right x13 hc1
  have y3 : 0 ≤ A3 * B1 - A1 * B3 := by
    have : A1 * (-c3 * B3) + B1 * (c3 * A3) = c3 * (A3 * B1 - A1 * B3) := by ring
    rw [this] at x31
    exact nonneg_of_mul_nonneg_right x31 hc3
  have hcross : A1 * B3 = A3 * B1 := by linarith
  -- `q3` is a positive multiple of `q1`
  obtain ⟨t, ht, e1, e2⟩ : ∃ t, 0 < t ∧ A3 = t * A1 ∧ B3 = t * B1 := by
    rcases a1.lt_or_eq with ha | ha
    · have hA3 : 0 < A3 := by
        refine lt_of_le_of_ne a3 fun e => ?_
        rw [← e, zero_mul] at hcross
        rcases mul_eq_zero.1 hcross with hh | hh
        · exact ha.ne' hh
        · rcases z3 with z | z
          · exact z e.symm
          · exact z hh
      exact ⟨A3 / A1, div_pos hA3 ha, by field_simp, by field_simp; linarith⟩
    · have hB1 : B1 < 0 := lt_of_le_of_ne b1 (by rcases z1 with z | z; exact absurd ha.symm z; exact z)
      rw [← ha, zero_mul] at hcross
      have hA3 : A3 = 0 := (mul_eq_zero.1 hcross.symm).resolve_right hB1.ne
      have hB3 : B3 < 0 := lt_of_le_of_ne b3 (by rcases z3 with z | z; exact absurd hA3 z; exact z)
      refine ⟨B3 / B1, div_pos_of_neg_of_neg hB3 hB1, by rw [hA3, ← ha, mul_zero], ?_⟩
      have : B1 ≠ 0 := hB1.ne
      field_simp
  apply n13
  symm
  refine h.facet_unique hF3 hF1 hq3 hq1 (hR3.trans hR1.symm) ?_ hT1 hi1 he1 ?_
  · rw [two (l F1) (zeroR F1 q1 hF1 hR1) q3, u1, w1]
    show A3 * _ + B3 * _ = 0
    rw [e1, e2]; ring
  · have hm := two (crd K T1 q1) (fun k hk => crd_ne f1 hq1T1 (Finset.mem_of_mem_erase (he1.symm ▸ Finset.mem_of_mem_erase (hR1.symm ▸ hk)))
      (by rw [← hR1] at hk; exact (Finset.ne_of_mem_erase hk).symm))
    have h3 := hm q3
    have h1 := hm q1
    rw [crd_self f1 hq1T1] at h1
    have : crd K T1 q1 q3 = t := by
      rw [h3]
      show A3 * _ + B3 * _ = t
      rw [e1, e2, mul_assoc, mul_assoc, ← mul_add, ← h1, mul_one]
    rw [this]; exact ht

/-- a ridge of a facet belongs to exactly two facets -/
theorem ridge_two {R F : Finset E} (hF : F ∈ Fc) (hR : IsFace R F) : (Fc.filter (IsFace R)).card = 2 := by
  have h1 := h.ridge_even R
  have h2 := h.ridge_le R
  have h3 : 0 < (Fc.filter (IsFace R)).card := Finset.card_pos.2 ⟨F, Finset.mem_filter.2 ⟨hF, hR⟩⟩
  obtain ⟨k, hk⟩ := h1
  omega

end IsHull
end

end Verif.Geometry
