import Verif.Proofs.HullMeet
import Verif.Proofs.HullSimplex
import Verif.Proofs.HullRel

/-! # Every history makes the hull of the set it stands for -/

namespace Verif.Geometry

open Classical Verif.Rings

noncomputable local instance (priority := 5000) decPt13 (K : Type) (d : Nat) : DecidableEq (Fin d → K) := fun a b => Classical.propDecidable (a = b)

section
variable {α K : Type} [Field K] [LinearOrder K] [IsStrictOrderedRing K]
variable {S : OrdOps α} {v : α → K} {d D n : Nat} {sp : Space} {c : Hull α} {P X : Set (Fin D → K)}

theorem Side.region_closed (h : S.Models v) (hd : sp.dim = D + 1) {o : OSimplex α} (ho : o.Valid S v D sp) {A : (Fin D → K) →ᵃ[K] K}
    (hA : o.SideFun S v D sp A) (h0 : ∀ x, x ∈ o.simplex.span v D → A x = 0) (h1 : D ≠ 0 → ∀ x, A x = 0 → x ∈ o.simplex.span v D) (h2 : D = 0 → ∀ x, A x = 0)
    (side : Side) : side.region A = o.closedRegion v D side := by
  unfold OSimplex.closedRegion
  cases hr : o.orientation with
  | none =>
    have hD := ho.empty.1 hr
    cases side <;> simp [Side.region, h2 hD]
  | some fr =>
    obtain ⟨f, r⟩ := fr
    have hD : D ≠ 0 := fun hh => by rw [ho.empty.2 hh] at hr; cases hr
    obtain ⟨hri, hrp⟩ := ho.reference f r hr
    obtain ⟨sd, s1, s2⟩ := hA.classify h hri
    rw [hrp] at s1
    cases s1
    have hpos : 0 < A (r.val v D) := (s2 .positive).1 rfl
    have hmem : ∀ x, x ∈ o.simplex.span v D ↔ A x = 0 := fun x => ⟨h0 x, h1 hD x⟩
    have hlen := ho.length
    obtain ⟨p0, hp0⟩ : ∃ p0, p0 ∈ o.simplex.points := List.exists_mem_of_length_pos (by omega)
    have hp0s : p0.val v D ∈ o.simplex.span v D := subset_affineSpan K _ ⟨p0, hp0, rfl⟩
    have hlin : ∀ x, A.linear (x - p0.val v D) = A x := fun x => by
      have := A.linearMap_vsub x (p0.val v D)
      rw [vsub_eq_sub, vsub_eq_sub, h0 _ hp0s, sub_zero] at this
      exact this
    have hker : LinearMap.ker A.linear = (o.simplex.span v D).direction := by
      ext y
      rw [LinearMap.mem_ker, ← AffineSubspace.vadd_mem_iff_mem_direction y hp0s, hmem, vadd_eq_add, ← hlin (y + p0.val v D), add_sub_cancel_right]
    have hrn : r.val v D ∉ o.simplex.span v D := fun hh => hpos.ne' (h0 _ hh)
    have hss := sameSide_iff_functional hp0s hker (r.val v D)
    have hso := oppSide_iff_functional hp0s hker (r.val v D)
    cases side with
    | positive =>
      ext x
      show 0 ≤ A x ↔ (o.simplex.span v D).WSameSide (r.val v D) x
      by_cases hx : x ∈ o.simplex.span v D
      · exact ⟨fun _ => AffineSubspace.wSameSide_of_right_mem _ hx, fun _ => (h0 x hx).ge⟩
      · have h3 := hss x
        rw [hlin, hlin, mul_pos_iff_of_pos_left hpos] at h3
        have hx0 : A x ≠ 0 := fun hh => hx ((hmem x).2 hh)
        constructor
        · exact fun hh => (h3.2 (lt_of_le_of_ne hh hx0.symm)).1
        · exact fun hh => (h3.1 ⟨hh, hrn, hx⟩).le
    | neutral =>
      ext x
      exact (hmem x).symm
    | negative =>
      ext x
      show A x ≤ 0 ↔ (o.simplex.span v D).WOppSide (r.val v D) x
      by_cases hx : x ∈ o.simplex.span v D
      · exact ⟨fun _ => AffineSubspace.wOppSide_of_right_mem _ hx, fun _ => (h0 x hx).le⟩
      · have h3 := hso x
        rw [hlin, hlin, mul_neg_iff] at h3
        simp only [hpos, hpos.not_gt, true_and, false_and, or_false] at h3
        have hx0 : A x ≠ 0 := fun hh => hx ((hmem x).2 hh)
        constructor
        · exact fun hh => (h3.2 (lt_of_le_of_ne hh hx0)).1
        · exact fun hh => (h3.1 ⟨hh, hrn, hx⟩).le

theorem HullOf.halfClosed (hc : HullOf S v D c P) (h : S.Models v) {o : Oracle α} (ho : o.Fair) {hyp : OSimplex α} (hv : hyp.Valid S v D c.ambient) (side : Side) :
    ∃ c' P', S.hullHalf o c hyp side = some c' ∧ HullOf S v D c' P' ∧ convexHull K P' = convexHull K P ∩ hyp.closedRegion v D side ∧ c'.ambient = c.ambient := by
  obtain ⟨A, A1, A2, A3, A4⟩ := hv.sideFun h hc.ambDim
  rw [← Side.region_closed h hc.ambDim hv A1 A2 A3 A4 side]
  exact hc.half h ho hv A1 A2 side

/-- every history makes the hull of its set -/
theorem Built.hullOf (h : S.Models v) (hb : Built S v D c X) : ∃ P, HullOf S v D c P ∧ convexHull K P = X := by
  induction hb with
  | new o ho sp hd pts hp hc =>
    obtain ⟨c', e1, e2, -⟩ := h.hullNew ho hd hp
    rw [hc] at e1; cases e1
    exact ⟨_, e2, rfl⟩
  | simplex o ho sp hd s hs hc =>
    obtain ⟨c', e1, e2, -⟩ := h.hullFromSimplex o hd hs
    rw [hc] at e1; cases e1
    exact ⟨_, e2, rfl⟩
  | extend hb o ho pt hp hc ih =>
    obtain ⟨P, i1, i2⟩ := ih
    obtain ⟨c', e1, e2, -⟩ := i1.extend h ho hp
    rw [hc] at e1; cases e1
    refine ⟨_, e2, ?_⟩
    rw [← i2, Set.insert_eq, Set.insert_eq, convexHull_convexHull_union_right]
  | half hb o ho hyp hv side hc ih =>
    obtain ⟨P, i1, i2⟩ := ih
    obtain ⟨c', P', e1, e2, e3, -⟩ := i1.halfClosed h ho hv side
    rw [hc] at e1; cases e1
    exact ⟨_, e2, i2 ▸ e3⟩
  | intersect hb he ha o ho hc ih1 ih2 =>
    obtain ⟨P, i1, i2⟩ := ih1
    obtain ⟨Q, j1, j2⟩ := ih2
    obtain ⟨c', P', e1, e2, e3, -⟩ := i1.intersect j1 ha h ho
    rw [hc] at e1; cases e1
    exact ⟨_, e2, i2 ▸ j2 ▸ e3⟩

theorem pointSet_verts (s : Simplex α) : pointSet v d s.points = (s.verts v d : Set (Fin d → K)) := (coe_vertsOf _).symm

theorem image_inter_convexHull {E E' : Type} [AddCommGroup E] [Module K E] [AddCommGroup E'] [Module K E'] {f : E →ᵃ[K] E'} {T : Finset E} :
    convexHull K ((T.image f : Finset E') : Set E') = f '' convexHull K (T : Set E) := by
  rw [Finset.coe_image, AffineMap.image_convexHull]

/-- the simplices that make up the hull -/
theorem HullOf.interior (hc : HullOf S v D c P) (h : S.Models v) :
    ∃ L, S.embeddedInterior c = some L ∧ (∀ s ∈ L, s.Valid v D c.ambient ∧ s.points.length = c.spanDim) ∧
      (L.map fun s => pointSet v D s.points).Nodup ∧
      (⋃ s ∈ L, convexHull K (pointSet v D s.points)) = convexHull K P ∧
      ∀ s ∈ L, ∀ t ∈ L, convexHull K (pointSet v D s.points) ∩ convexHull K (pointSet v D t.points) =
        convexHull K (pointSet v D s.points ∩ pointSet v D t.points) := by
  rcases hc with ⟨rfl, hc⟩ | ⟨n, f, l, hi⟩
  · have hd : c.ambient.dim = D + 1 := hc.amb ▸ hc.sub.dim
    obtain ⟨t, t1, t2, t3⟩ := h.simplexUnwrap (points := []) hd ⟨by simp, haveI : Subsingleton (Fin ([] : List (Vec α)).length) := inferInstanceAs (Subsingleton (Fin 0)); affineIndependent_of_subsingleton K _⟩
    refine ⟨[t], ?_, ?_, by simp, ?_, ?_⟩
    · unfold OrdOps.embeddedInterior
      rw [hc.interior]
      simp [t1]
    · simp only [List.mem_singleton, forall_eq]
      exact ⟨t2, by rw [t3.length_eq, Hull.spanDim, hc.dim]; rfl⟩
    · simp [List.perm_nil.1 t3, pointSet]
    · simp
  · obtain ⟨G, g1, g2⟩ := hi.embedded h hi.interior
    have hcv : ∀ s ∈ c.interior, convexHull K (pointSet v D (G s).points) = f '' convexHull K (s.verts v n : Set (Fin n → K)) := by
      intro s hs
      rw [pointSet_verts, (g2 s hs).2.1, image_inter_convexHull]
    refine ⟨_, g1, ?_, ?_, ?_, ?_⟩
    · intro s hs
      obtain ⟨s, hs', rfl⟩ := List.mem_map.1 hs
      clear hs
      have hs := hs'
      obtain ⟨k1, k2, k3⟩ := g2 s hs
      refine ⟨k1, ?_⟩
      rw [k3, Hull.spanDim, hi.dim]
      have := (hi.hull.full (s.verts v n) (mem_simps.2 ⟨s, hs, rfl⟩)).card
      rw [Module.finrank_fin_fun] at this
      rw [← this, Simplex.verts, (hi.interior s hs).points.verts_card]
    · rw [List.map_map]
      have hnd := hi.nodupI
      rw [List.Nodup, List.pairwise_map] at hnd ⊢
      refine hnd.imp_of_mem ?_
      intro a b ha hb hab he
      apply hab
      simp only [Function.comp_apply, pointSet_verts] at he
      rw [(g2 a ha).2.1, (g2 b hb).2.1] at he
      exact Finset.image_injective hi.map.inj (Finset.coe_injective he)
    · rw [hi.region]
      ext x
      simp only [Set.mem_iUnion, List.mem_map, exists_prop]
      constructor
      · rintro ⟨_, ⟨s, hs, rfl⟩, hx⟩
        rw [hcv s hs] at hx
        obtain ⟨y, hy, rfl⟩ := hx
        exact ⟨y, (hi.hull.region y).2 ⟨_, mem_simps.2 ⟨s, hs, rfl⟩, hy⟩, rfl⟩
      · rintro ⟨y, hy, rfl⟩
        obtain ⟨T, hT, hy⟩ := (hi.hull.region y).1 hy
        obtain ⟨s, hs, rfl⟩ := mem_simps.1 hT
        exact ⟨G s, ⟨s, hs, rfl⟩, by rw [hcv s hs]; exact ⟨y, hy, rfl⟩⟩
    · intro s hs t ht
      obtain ⟨s, hs', rfl⟩ := List.mem_map.1 hs
      clear hs
      have hs := hs'
      obtain ⟨t, ht', rfl⟩ := List.mem_map.1 ht
      clear ht
      have ht := ht'
      apply Set.Subset.antisymm
      · rw [hcv s hs, hcv t ht]
        rintro _ ⟨⟨x, hx, rfl⟩, ⟨y, hy, hxy⟩⟩
        obtain rfl := hi.map.inj hxy
        have h3 := hi.proper _ (mem_simps.2 ⟨s, hs, rfl⟩) _ (mem_simps.2 ⟨t, ht, rfl⟩) y hx hy
        rw [pointSet_verts, pointSet_verts, (g2 s hs).2.1, (g2 t ht).2.1, ← Finset.coe_inter, ← Finset.image_inter _ _ hi.map.inj, image_inter_convexHull]
        exact ⟨y, h3, rfl⟩
      · exact Set.subset_inter (convexHull_mono Set.inter_subset_left) (convexHull_mono Set.inter_subset_right)

theorem relBoundary_empty {E : Type} [AddCommGroup E] [Module K E] : relBoundary K (∅ : Set E) = ∅ := by simp [relBoundary]

/-- the boundary of the hull in terms of the facets -/
theorem HullInv.boundary {f : (Fin n → K) →ᵃ[K] (Fin D → K)} {l : Finset (Fin n → K) → (Fin n → K) →ᵃ[K] K} (hi : HullInv S v D n c P f l) :
    relBoundary K (convexHull K P) = f '' {x | ∃ F ∈ c.facs v n, x ∈ convexHull K (F : Set (Fin n → K))} := by
  rw [relBoundary, hi.region, relInterior_image hi.map.inj, ← Set.image_diff hi.map.inj, hi.hull.relInterior_eq]
  congr 1
  ext x
  constructor
  · rintro ⟨h1, h2⟩
    by_contra hn
    exact h2 ⟨h1, fun F hF hx => hn ⟨F, hF, hx⟩⟩
  · rintro ⟨F, hF, hx⟩
    exact ⟨hi.hull.facet_sub hF hx, fun hh => hh.2 F hF hx⟩

/-- the simplices that make up the boundary -/
theorem HullOf.facets (hc : HullOf S v D c P) (h : S.Models v) :
    ∃ L, S.embeddedFacets c = some L ∧ (∀ s ∈ L, s.Valid v D c.ambient ∧ s.points.length + 1 = c.spanDim) ∧
      (L.map fun s => pointSet v D s.points).Nodup ∧
      (⋃ s ∈ L, convexHull K (pointSet v D s.points)) = relBoundary K (convexHull K P) := by
  rcases hc with ⟨rfl, hc⟩ | ⟨n, f, l, hi⟩
  · refine ⟨[], ?_, by simp, by simp, ?_⟩
    · unfold OrdOps.embeddedFacets
      rw [hc.facets]; rfl
    · rw [convexHull_empty, relBoundary_empty]; simp
  · obtain ⟨G, g1, g2⟩ := hi.embedded h (L := c.facets.map fun o => o.simplex) (by
      intro s hs
      obtain ⟨o, ho, rfl⟩ := List.mem_map.1 hs
      exact (hi.facets o ho).simplex)
    rw [List.mapM_map] at g1
    refine ⟨_, g1, ?_, ?_, ?_⟩
    · intro s hs
      obtain ⟨s, hs', rfl⟩ := List.mem_map.1 hs
      clear hs
      have hs := hs'
      obtain ⟨k1, k2, k3⟩ := g2 s hs
      refine ⟨k1, ?_⟩
      obtain ⟨o, ho, rfl⟩ := List.mem_map.1 hs
      rw [k3, Hull.spanDim, hi.dim, (hi.facets o ho).length]
    · have hnd := hi.nodup
      rw [List.map_map, List.map_map]
      rw [List.Nodup, List.pairwise_map] at hnd ⊢
      refine hnd.imp_of_mem ?_
      intro a b ha hb hab he
      apply hab
      simp only [Function.comp_apply, pointSet_verts] at he
      rw [(g2 _ (List.mem_map_of_mem ha)).2.1, (g2 _ (List.mem_map_of_mem hb)).2.1] at he
      exact Finset.image_injective hi.map.inj (Finset.coe_injective he)
    · rw [hi.boundary]
      ext x
      simp only [Set.mem_iUnion, List.mem_map, exists_prop]
      constructor
      · rintro ⟨_, ⟨s, ⟨o, ho, rfl⟩, rfl⟩, hx⟩
        rw [pointSet_verts, (g2 _ (List.mem_map_of_mem ho)).2.1, image_inter_convexHull] at hx
        obtain ⟨y, hy, rfl⟩ := hx
        exact ⟨y, ⟨_, mem_facs.2 ⟨o, ho, rfl⟩, hy⟩, rfl⟩
      · rintro ⟨y, ⟨F, hF, hy⟩, rfl⟩
        obtain ⟨o, ho, rfl⟩ := mem_facs.1 hF
        refine ⟨_, ⟨_, ⟨o, ho, rfl⟩, rfl⟩, ?_⟩
        rw [pointSet_verts, (g2 _ (List.mem_map_of_mem ho)).2.1, image_inter_convexHull]
        exact ⟨y, hy, rfl⟩

end

end Verif.Geometry
