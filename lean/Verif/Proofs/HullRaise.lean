import Verif.Proofs.HullExtend

/-! # Adding a point outside the affine span of a triangulated convex hull -/

namespace Verif.Geometry

open Classical

section
variable {E E' : Type}

theorem isFace_image {f : E → E'} (hf : Function.Injective f) {Q : Finset E'} {T : Finset E} :
    IsFace Q (T.image f) ↔ ∃ R, IsFace R T ∧ R.image f = Q := by
  constructor
  · rintro ⟨i, hi, rfl⟩
    obtain ⟨j, hj, rfl⟩ := Finset.mem_image.1 hi
    exact ⟨T.erase j, ⟨j, hj, rfl⟩, by rw [Finset.image_erase hf]⟩
  · rintro ⟨R, ⟨j, hj, rfl⟩, rfl⟩
    exact ⟨f j, Finset.mem_image_of_mem f hj, by rw [Finset.image_erase hf]⟩

end

section
variable {K E E' : Type} [Field K] [LinearOrder K] [IsStrictOrderedRing K] [AddCommGroup E] [Module K E] [FiniteDimensional K E]
  [AddCommGroup E'] [Module K E'] [FiniteDimensional K E']

omit [LinearOrder K] [IsStrictOrderedRing K] in
theorem Full.cone {T : Finset E} (h : Full K T) {f : E →ᵃ[K] E'} (hf : Function.Injective f) (hd : Module.finrank K E' = Module.finrank K E + 1)
    {p : E'} {m : E' →ᵃ[K] K} (hm : ∀ x ∈ T, m (f x) = 0) (hp : m p ≠ 0) :
    p ∉ T.image f ∧ Full K (insert p (T.image f)) := by
  have h1 : AffineIndependent K (fun x : (T.image f : Finset E') => (x : E')) := by
    have h2 := h.indep.map' f hf
    have h3 : AffineIndependent K (fun x : Set.range (f ∘ fun x : T => (x : E)) => (x : E')) := h2.range
    have e : Set.range (f ∘ fun x : T => (x : E)) = ((T.image f : Finset E') : Set E') := by
      ext y; simp
    rw [e] at h3
    exact h3
  obtain ⟨hpn, h2⟩ := indep_insert (p := p) (m := m) h1 (by
    intro x hx
    obtain ⟨y, hy, rfl⟩ := Finset.mem_image.1 hx
    exact hm y hy) hp
  refine ⟨hpn, h2, ?_⟩
  rw [Finset.card_insert_of_notMem hpn, Finset.card_image_of_injective _ hf, h.card, hd]

namespace IsHull
variable {I Fc : Finset (Finset E)} {l : Finset E → E →ᵃ[K] K} (h : IsHull I Fc l)
include h

/-- adding a point outside the space of the hull -/
theorem raise {f : E →ᵃ[K] E'} (hf : Function.Injective f) (hd : Module.finrank K E' = Module.finrank K E + 1) {p : E'}
    {l' : Finset E' → E' →ᵃ[K] K} (hI : ∀ T ∈ I, (∀ x ∈ T, l' (T.image f) (f x) = 0) ∧ 0 < l' (T.image f) p)
    (hF : ∀ F ∈ Fc, (∀ x ∈ F, l' (insert p (F.image f)) (f x) = 0) ∧ l' (insert p (F.image f)) p = 0 ∧
      ∃ x, 0 < l F x ∧ 0 < l' (insert p (F.image f)) (f x)) :
    IsHull (I.image fun T => insert p (T.image f)) ((I.image fun T => T.image f) ∪ Fc.image fun F => insert p (F.image f)) l' := by
  obtain ⟨T0, hT0⟩ := h.nonempty
  -- the functions of the old simplices vanish on the old space
  have hzero : ∀ T ∈ I, ∀ x, l' (T.image f) (f x) = 0 := by
    intro T hT x
    exact affine_ext_zero (h.full T hT) ((l' (T.image f)).comp f) (fun j hj => (hI T hT).1 j hj) x
  have hpr : ∀ x, f x ≠ p := by
    intro x e
    have := (hI T0 hT0).2
    rw [← e, hzero T0 hT0 x] at this
    exact lt_irrefl _ this
  have hpi : ∀ S : Finset E, p ∉ S.image f := by
    intro S hS
    obtain ⟨x, -, hx⟩ := Finset.mem_image.1 hS
    exact hpr x hx
  have hfull : ∀ T ∈ I, Full K (insert p (T.image f)) := fun T hT =>
    ((h.full T hT).cone hf hd (m := l' (T0.image f)) (fun x _ => hzero T0 hT0 x) (hI T0 hT0).2.ne').2
  have hinjF : Function.Injective fun S : Finset E => S.image f := Finset.image_injective hf
  have hinj : Function.Injective fun S : Finset E => insert p (S.image f) := by
    intro S S' e
    have e' : insert p (S.image f) = insert p (S'.image f) := e
    apply hinjF
    show S.image f = S'.image f
    rw [← Finset.erase_insert (hpi S), e', Finset.erase_insert (hpi S')]
  -- the functions of the cones over the old facets
  have hcone : ∀ F ∈ Fc, ∃ c, 0 < c ∧ ∀ x, l' (insert p (F.image f)) (f x) = c * l F x := by
    intro F hFF
    obtain ⟨T, hT, i, hi, he⟩ := h.facet hFF
    obtain ⟨p1, k1⟩ := h.facet_fun hFF hT hi he
    have k2 := affine_eq_single (h.full T hT) ((l' (insert p (F.image f))).comp f) hi (fun j hj => (hF F hFF).1 j (he ▸ hj))
    simp only [AffineMap.comp_apply] at k2
    obtain ⟨x, x1, x2⟩ := (hF F hFF).2.2
    have hci : 0 < crd K T i x := by
      by_contra hn
      have := mul_nonpos_of_nonpos_of_nonneg (not_lt.1 hn) p1.le
      rw [k1] at x1
      linarith
    have hp : 0 < l' (insert p (F.image f)) (f i) := by
      by_contra hn
      have := mul_nonpos_of_nonneg_of_nonpos hci.le (not_lt.1 hn)
      rw [k2] at x2
      linarith
    refine ⟨l' (insert p (F.image f)) (f i) / l F i, div_pos hp p1, fun y => ?_⟩
    rw [k2 y, k1 y]
    field_simp
  refine ⟨⟨_, Finset.mem_image_of_mem _ hT0⟩, ?_, ?_, ?_, ?_, ?_, ?_⟩
  · intro S hS
    obtain ⟨T, hT, rfl⟩ := Finset.mem_image.1 hS
    exact hfull T hT
  · intro S hS x hx
    rcases Finset.mem_union.1 hS with hS | hS
    · obtain ⟨T, hT, rfl⟩ := Finset.mem_image.1 hS
      obtain ⟨y, hy, rfl⟩ := Finset.mem_image.1 hx
      exact hzero T hT y
    · obtain ⟨F, hFF, rfl⟩ := Finset.mem_image.1 hS
      rcases Finset.mem_insert.1 hx with rfl | hx
      · exact (hF F hFF).2.1
      · obtain ⟨y, hy, rfl⟩ := Finset.mem_image.1 hx
        exact (hF F hFF).1 y hy
  · intro S hS U hU x hx
    obtain ⟨T', hT', rfl⟩ := Finset.mem_image.1 hU
    rcases Finset.mem_union.1 hS with hS | hS
    · obtain ⟨T, hT, rfl⟩ := Finset.mem_image.1 hS
      rcases Finset.mem_insert.1 hx with rfl | hx
      · exact (hI T hT).2.le
      · obtain ⟨y, hy, rfl⟩ := Finset.mem_image.1 hx
        rw [hzero T hT y]
    · obtain ⟨F, hFF, rfl⟩ := Finset.mem_image.1 hS
      rcases Finset.mem_insert.1 hx with rfl | hx
      · rw [(hF F hFF).2.1]
      · obtain ⟨y, hy, rfl⟩ := Finset.mem_image.1 hx
        obtain ⟨c, c1, c2⟩ := hcone F hFF
        rw [c2]
        exact mul_nonneg c1.le (h.nonneg F hFF T' hT' y hy)
  · intro S hS
    rcases Finset.mem_union.1 hS with hS | hS
    · obtain ⟨T, hT, rfl⟩ := Finset.mem_image.1 hS
      exact ⟨p, (hI T hT).2.ne'⟩
    · obtain ⟨F, hFF, rfl⟩ := Finset.mem_image.1 hS
      obtain ⟨x, -, hx⟩ := (hF F hFF).2.2
      exact ⟨f x, hx.ne'⟩
  · intro R
    have hcard : ((I.image fun T => insert p (T.image f)).filter (IsFace R)).card = (I.filter fun T => IsFace R (insert p (T.image f))).card := by
      rw [Finset.filter_image, Finset.card_image_of_injective _ hinj]
    rw [hcard]
    by_cases hpR : p ∈ R
    · have e2 : (I.filter fun T => IsFace R (insert p (T.image f))) = I.filter fun T => ∃ Q, IsFace Q T ∧ Q.image f = R.erase p := by
        apply Finset.filter_congr
        intro T hT
        rw [isFace_insert (hpi T), isFace_image hf]
        constructor
        · rintro (rfl | hh)
          · exact absurd hpR (hpi T)
          · exact hh.2
        · exact fun hh => .inr ⟨hpR, hh⟩
      rw [e2]
      have e3 : R ∈ (I.image fun T => T.image f) ∪ Fc.image (fun F => insert p (F.image f)) ↔ ∃ F ∈ Fc, F.image f = R.erase p := by
        rw [Finset.mem_union, Finset.mem_image, Finset.mem_image]
        constructor
        · rintro (⟨T, -, rfl⟩ | ⟨F, hFF, rfl⟩)
          · exact absurd hpR (hpi T)
          · exact ⟨F, hFF, by rw [Finset.erase_insert (hpi F)]⟩
        · rintro ⟨F, hFF, e⟩
          exact .inr ⟨F, hFF, by rw [e, Finset.insert_erase hpR]⟩
      rw [e3]
      by_cases hQ : ∃ Q : Finset E, Q.image f = R.erase p
      · obtain ⟨Q, hQ⟩ := hQ
        have e4 : (I.filter fun T => ∃ Q, IsFace Q T ∧ Q.image f = R.erase p) = I.filter (IsFace Q) := by
          apply Finset.filter_congr
          intro T _
          constructor
          · rintro ⟨Q', h1, h2⟩
            have : Q' = Q := hinjF (h2.trans hQ.symm)
            rwa [← this]
          · exact fun hh => ⟨Q, hh, hQ⟩
        rw [e4, ← h.chain Q]
        constructor
        · rintro ⟨F, hFF, e⟩
          have : F = Q := hinjF (e.trans hQ.symm)
          rwa [← this]
        · exact fun hh => ⟨Q, hh, hQ⟩
      · have e4 : (I.filter fun T => ∃ Q, IsFace Q T ∧ Q.image f = R.erase p) = ∅ := by
          rw [Finset.filter_eq_empty_iff]
          rintro T _ ⟨Q, -, e⟩
          exact hQ ⟨Q, e⟩
        rw [e4]
        constructor
        · rintro ⟨F, -, e⟩; exact absurd ⟨F, e⟩ hQ
        · intro hh; simp at hh
    · have e2 : (I.filter fun T => IsFace R (insert p (T.image f))) = I.filter fun T => T.image f = R := by
        apply Finset.filter_congr
        intro T hT
        rw [isFace_insert (hpi T)]
        constructor
        · rintro (rfl | hh)
          · rfl
          · exact absurd hh.1 hpR
        · exact fun hh => .inl hh.symm
      rw [e2]
      have e3 : R ∈ (I.image fun T => T.image f) ∪ Fc.image (fun F => insert p (F.image f)) ↔ ∃ T ∈ I, T.image f = R := by
        rw [Finset.mem_union, Finset.mem_image, Finset.mem_image]
        constructor
        · rintro (hh | ⟨F, hFF, rfl⟩)
          · exact hh
          · exact absurd (Finset.mem_insert_self _ _) hpR
        · exact .inl
      rw [e3]
      constructor
      · rintro ⟨T, hT, e⟩
        have : (I.filter fun T => T.image f = R) = {T} := by
          ext T'
          rw [Finset.mem_filter, Finset.mem_singleton]
          constructor
          · rintro ⟨-, e'⟩; exact hinjF (e'.trans e.symm)
          · rintro rfl; exact ⟨hT, e⟩
        rw [this]; simp
      · intro ho
        obtain ⟨T, hT⟩ := Finset.card_pos.1 ho.pos
        rw [Finset.mem_filter] at hT
        exact ⟨T, hT.1, hT.2⟩
  · -- the simplices do not overlap
    have hproj : ∀ T ∈ I, ∀ x, Inside K (insert p (T.image f)) x → ∃ s y, s < 1 ∧ x = AffineMap.lineMap (f y) p s ∧
        l' (T0.image f) x = s * l' (T0.image f) p ∧ Inside K T y := by
      intro T hT x hx
      have hS := hfull T hT
      have hpS := Finset.mem_insert_self p (T.image f)
      have hft := h.full T hT
      have e := affine_eq_single hS (l' (T0.image f)) hpS (by
        rw [Finset.erase_insert (hpi T)]
        intro j hj
        obtain ⟨y, -, rfl⟩ := Finset.mem_image.1 hj
        exact hzero T0 hT0 y) x
      set s := crd K (insert p (T.image f)) p x with hs
      have hsum := crd_sum hS x
      have hcomb := crd_comb hS x
      rw [Finset.sum_insert (hpi T)] at hsum hcomb
      rw [Finset.sum_image (fun a _ b _ hab => hf hab)] at hsum hcomb
      have hne : T.Nonempty := Finset.card_pos.1 (by rw [hft.card]; omega)
      have hxj : ∀ j ∈ T, 0 < crd K (insert p (T.image f)) (f j) x := fun j hj => hx _ (Finset.mem_insert_of_mem (Finset.mem_image_of_mem f hj))
      have hs1 : s < 1 := by
        have := Finset.sum_pos hxj hne
        rw [← hsum]; linarith
      have hs2 : (0 : K) < 1 - s := by linarith
      let w : E → K := fun j => (1 - s)⁻¹ * crd K (insert p (T.image f)) (f j) x
      have hw1 : ∑ j ∈ T, w j = 1 := by
        rw [← Finset.mul_sum]
        have : ∑ j ∈ T, crd K (insert p (T.image f)) (f j) x = 1 - s := by linarith
        rw [this, inv_mul_cancel₀ hs2.ne']
      refine ⟨s, ∑ j ∈ T, w j • j, hs1, ?_, e, ?_⟩
      · have e1 : f (∑ j ∈ T, w j • j) = ∑ j ∈ T, w j • f j := by
          have h1 := Finset.map_affineCombination T (fun i : E => i) w hw1 f
          rw [Finset.affineCombination_eq_linear_combination _ _ _ hw1, Finset.affineCombination_eq_linear_combination _ _ _ hw1] at h1
          simpa using h1
        have e2 : ∑ j ∈ T, w j • f j = (1 - s)⁻¹ • ∑ j ∈ T, crd K (insert p (T.image f)) (f j) x • f j := by
          rw [Finset.smul_sum]
          exact Finset.sum_congr rfl fun j _ => by simp only [w]; rw [smul_smul]
        rw [AffineMap.lineMap_apply_module, e1, e2, smul_smul, mul_inv_cancel₀ hs2.ne', one_smul, add_comm]
        exact hcomb.symm
      · intro j hj
        rw [crd_unique hft hw1 rfl hj]
        exact mul_pos (inv_pos.2 hs2) (hxj j hj)
    intro S hS S' hS' x hx hx'
    obtain ⟨T, hT, rfl⟩ := Finset.mem_image.1 hS
    obtain ⟨T', hT', rfl⟩ := Finset.mem_image.1 hS'
    obtain ⟨s, y, s1, sx, sl, sy⟩ := hproj T hT x hx
    obtain ⟨s', y', s1', sx', sl', sy'⟩ := hproj T' hT' x hx'
    have hss : s = s' := mul_right_cancel₀ (hI T0 hT0).2.ne' (sl.symm.trans sl')
    have hyy : y = y' := by
      apply hf
      have e : AffineMap.lineMap (f y) p s = AffineMap.lineMap (f y') p s := by rw [← sx, sx', hss]
      simp only [AffineMap.lineMap_apply_module, add_left_inj] at e
      exact smul_right_injective E' (show (1 - s) ≠ 0 by linarith) e
    rw [h.disj T hT T' hT' y sy (hyy ▸ sy')]

end IsHull
end

end Verif.Geometry
