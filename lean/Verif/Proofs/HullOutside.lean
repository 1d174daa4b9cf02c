import Verif.Proofs.HullInside2

/-! # Extending a hull by a point outside its affine span -/

namespace Verif.Geometry

open Classical Verif.Rings

noncomputable local instance (priority := 5000) decPt6 (K : Type) (d : Nat) : DecidableEq (Fin d → K) := fun a b => Classical.propDecidable (a = b)

theorem mapM_choose {β γ : Type} [Nonempty γ] {L : List β} {f : β → Option γ} {Q : β → γ → Prop} (h : ∀ x ∈ L, ∃ y, f x = some y ∧ Q x y) :
    ∃ G : β → γ, L.mapM f = some (L.map G) ∧ ∀ x ∈ L, Q x (G x) := by
  refine ⟨fun x => if hx : x ∈ L then Classical.choose (h x hx) else Classical.choice inferInstance, ?_, ?_⟩
  · refine mapM_eq_map _ fun x hx => ?_
    simp only [dif_pos hx]
    exact (Classical.choose_spec (h x hx)).1
  · intro x hx
    simp only [dif_pos hx]
    exact (Classical.choose_spec (h x hx)).2

section
variable {α K : Type} [Field K] [LinearOrder K] [IsStrictOrderedRing K] {S : OrdOps α} {v : α → K} {D n : Nat} {sp : Space}
  {c : Hull α} {P : Set (Fin D → K)} {f : (Fin n → K) →ᵃ[K] (Fin D → K)} {l : Finset (Fin n → K) → (Fin n → K) →ᵃ[K] K}

instance : Nonempty (Simplex α) := ⟨⟨⟨0, 0⟩, []⟩⟩
instance : Nonempty (OSimplex α) := ⟨⟨⟨⟨0, 0⟩, []⟩, none⟩⟩

omit [LinearOrder K] [IsStrictOrderedRing K] in
theorem affine_zero_span {E : Type} [AddCommGroup E] [Module K E] {s : Set E} {A : E →ᵃ[K] K} (h0 : ∀ x ∈ s, A x = 0) {x : E} (hx : x ∈ affineSpan K s) : A x = 0 := by
  have h1 : affineSpan K s ≤ (affineSpan K {(0 : K)}).comap A := by
    rw [affineSpan_le]
    intro y hy
    rw [SetLike.mem_coe, AffineSubspace.mem_comap, AffineSubspace.mem_affineSpan_singleton]
    exact h0 y hy
  have h2 := h1 hx
  rwa [AffineSubspace.mem_comap, AffineSubspace.mem_affineSpan_singleton] at h2

/-- the images of points under an embedding -/
theorem EmbSub.Map.embedAll {e : EmbSub α} {m : Nat} {g : (Fin n → K) →ᵃ[K] (Fin m → K)} (hg : e.Map S v m n g) {pts : List (Vec α)} (hp : ∀ p ∈ pts, p.In e.embedded) :
    ∃ qs, pts.mapM (S.embedPoint e) = some qs ∧ qs.length = pts.length ∧ (∀ q ∈ qs, q.In e.ambient) ∧ vertsOf v m qs = (vertsOf v n pts).image g ∧
      qs.map (Vec.val v m) = pts.map fun p => g (p.val v n) := by
  haveI : Nonempty (Vec α) := ⟨⟨⟨0, 0⟩, []⟩⟩
  obtain ⟨G, G1, G2⟩ := mapM_choose (L := pts) (f := S.embedPoint e) (Q := fun p q => q.In e.ambient ∧ q.val v m = g (p.val v n)) (fun p hpt => by
    obtain ⟨q, q1, q2, q3⟩ := hg.embed p (hp p hpt); exact ⟨q, q1, q2, q3⟩)
  refine ⟨_, G1, List.length_map _, ?_, ?_, ?_⟩
  · intro q hq
    obtain ⟨p, hpt, rfl⟩ := List.mem_map.1 hq
    exact (G2 p hpt).1
  · ext x
    rw [mem_vertsOf, Finset.mem_image]
    constructor
    · rintro ⟨q, hq, rfl⟩
      obtain ⟨p, hpt, rfl⟩ := List.mem_map.1 hq
      exact ⟨_, mem_vertsOf.2 ⟨p, hpt, rfl⟩, (G2 p hpt).2.symm⟩
    · rintro ⟨y, hy, rfl⟩
      obtain ⟨p, hpt, rfl⟩ := mem_vertsOf.1 hy
      exact ⟨G p, List.mem_map_of_mem hpt, (G2 p hpt).2⟩
  · rw [List.map_map]
    apply List.map_congr_left
    intro p hpt
    exact (G2 p hpt).2

theorem HullInv.extendOutside (hi : HullInv S v D n c P f l) (h : S.Models v) (o : Oracle α) {pt : Vec α} (hp : pt.In c.ambient)
    (hnot : pt.val v D ∉ affineSpan K (pointSet v D c.subspace.points)) :
    ∃ c' f' l', S.extendOutside o c pt = some c' ∧ HullInv S v D (n + 1) c' (insert (pt.val v D) P) f' l' ∧ c'.ambient = c.ambient ∧
      c'.subspace.points = c.subspace.points ++ [pt] ∧ ∀ T ∈ c.simps v n, ∃ T' ∈ c'.simps v (n + 1), T.image f ⊆ T'.image f' := by
  have hdim := hi.dim
  obtain ⟨e1, e2, last, x1, v1, v2, x2, x3, x4, -, x5, hlast, hlv, hb⟩ := hi.sub.extendByPoint h (o.ident []) hi.len (hi.amb ▸ hp) hnot
  have hn1 : e1.points.length = n + 1 := by rw [← v1.embedded, x2, hdim]
  have hn2 : e2.points.length = n + 1 + 1 := by rw [x5]; simp [hi.len]
  have hd1 : e1.ambient.dim = n + 1 + 1 := v1.dim
  obtain ⟨g, hg⟩ := v1.map h hn1
  obtain ⟨f2, hf2⟩ := v2.map h hn2
  set p : Fin (n + 1) → K := last.val v (n + 1) with hpdef
  have hpe : p = Pi.single (Fin.last n) 1 := by
    rw [hlv]; funext j
    rw [Pi.single_apply]
    by_cases hj : n = (j : Nat)
    · rw [if_pos (by omega), if_pos (Fin.ext (by simp; omega))]
    · rw [if_neg (by omega), if_neg (fun e => hj (by rw [e]; simp))]
  have hfp : f2 p = pt.val v D := by
    rw [hpe, hf2.unit (Fin.last n) (by rw [hn2]; simp)]
    simp only [Fin.val_last, x5]
    rw [List.getElem_append_right (by rw [hi.len])]
    simp [hi.len]
  have hget : ∀ (i : Nat) (hi1 : i < n + 1) (hi' : i < e2.points.length), e2.points[i] = c.subspace.points[i]'(by rw [hi.len]; exact hi1) := by
    intro i hi1 hi'
    simp only [x5]
    rw [List.getElem_append_left (by rw [hi.len]; exact hi1)]
  have hcomp : f2.comp g = f := by
    apply affineMap_ext
    · rw [AffineMap.comp_apply, hg.zero (by omega), hb, hi.map.zero (by rw [hi.len]; omega)]
      have e5 : (fun j : Fin (n + 1) => if 0 = (j : Nat) + 1 then (1 : K) else 0) = 0 := by
        funext j; rw [if_neg (by omega)]; rfl
      rw [e5, hf2.zero (by omega), hget 0 (by omega)]
    · intro i
      rw [AffineMap.comp_apply, hg.unit i (by omega), hb, hi.map.unit i (by rw [hi.len]; omega)]
      have e5 : (fun j : Fin (n + 1) => if (i : Nat) + 1 = (j : Nat) + 1 then (1 : K) else 0) = Pi.single i.castSucc 1 := by
        funext j
        rw [Pi.single_apply]
        by_cases hj : (i : Nat) = (j : Nat)
        · rw [if_pos (by omega), if_pos (Fin.ext (by simp; omega))]
        · rw [if_neg (by omega), if_neg (fun e => hj (by rw [e]; simp))]
      rw [e5, hf2.unit i.castSucc (by rw [hn2]; simp)]
      simp only [Fin.val_castSucc]
      rw [hget _ (by omega)]
  have hfx : ∀ x, f2 (g x) = f x := fun x => by rw [← hcomp]; rfl
  have hpr : ∀ x, g x ≠ p := by
    intro x e
    apply hnot
    rw [← SetLike.mem_coe, ← hi.map.range]
    exact ⟨x, by rw [← hfx, e, hfp]⟩
  have hpi : ∀ T : Finset (Fin n → K), p ∉ T.image g := by
    intro T hT
    obtain ⟨x, -, hx⟩ := Finset.mem_image.1 hT
    exact hpr x hx
  have hpspan : ∀ T : Finset (Fin n → K), p ∉ affineSpan K (((T.image g : Finset (Fin (n + 1) → K))) : Set (Fin (n + 1) → K)) := by
    intro T hT
    have h1 : affineSpan K (((T.image g : Finset (Fin (n + 1) → K))) : Set (Fin (n + 1) → K)) ≤ (⊤ : AffineSubspace K (Fin n → K)).map g := by
      rw [affineSpan_le]
      intro y hy
      rw [Finset.mem_coe, Finset.mem_image] at hy
      obtain ⟨x, -, rfl⟩ := hy
      exact ⟨x, AffineSubspace.mem_top _ _ _, rfl⟩
    obtain ⟨x, -, hx⟩ := h1 hT
    exact hpr x hx
  have hinjF : Function.Injective fun T : Finset (Fin n → K) => T.image g := Finset.image_injective hg.inj
  have hinjI : ∀ T T' : Finset (Fin n → K), insert p (T.image g) = insert p (T'.image g) → T = T' := by
    intro T T' e
    apply hinjF
    have := congrArg (fun Q : Finset (Fin (n + 1) → K) => Q.erase p) e
    simpa only [Finset.erase_insert (hpi T), Finset.erase_insert (hpi T')] using this
  have hindep : ∀ T ∈ c.simps v n, AffineIndependent K (fun x : (T.image g : Finset (Fin (n + 1) → K)) => (x : Fin (n + 1) → K)) := by
    intro T hT
    have h2 := (hi.hull.full T hT).indep.map' g hg.inj
    have h3 := h2.range
    have e : Set.range (g ∘ fun x : T => (x : Fin n → K)) = ((T.image g : Finset (Fin (n + 1) → K)) : Set (Fin (n + 1) → K)) := by
      ext y; simp
    rw [e] at h3
    exact h3
  have hfr : Module.finrank K (Fin (n + 1) → K) = Module.finrank K (Fin n → K) + 1 := by
    rw [Module.finrank_fin_fun, Module.finrank_fin_fun]
  -- the old simplices as facets
  obtain ⟨Gb, Gb1, Gb2⟩ := mapM_choose (L := c.interior) (f := S.baseFacet c.subspace e1 last) (Q := fun s o' =>
      o'.Valid S v (n + 1) e1.ambient ∧ o'.simplex.verts v (n + 1) = (s.verts v n).image g ∧
      ∃ A, o'.Fits S v (n + 1) e1.ambient A ∧ (∀ x ∈ (s.verts v n).image g, A x = 0) ∧ 0 < A p) (by
    intro s hs
    have hsv := hi.interior s hs
    obtain ⟨qs, q1, q2, q3, q4, -⟩ := hg.embedAll (pts := s.points) (fun q hq => x2 ▸ hsv.points.mem q hq)
    have hT : s.verts v n ∈ c.simps v n := mem_simps.2 ⟨s, hs, rfl⟩
    have q4' : vertsOf v (n + 1) qs = (s.verts v n).image g := q4
    obtain ⟨o', y1, y2, y3, A, y4, y5, y6⟩ := h.newFacet hd1 (pts := qs) (ref := last) q3 (x3 ▸ hlast) (by rw [q2, hi.simplex_len hs])
      (by rw [q4', Finset.card_image_of_injective _ hg.inj]; exact hsv.points.verts_card.trans (hi.simplex_len hs)) (by rw [q4']; exact hindep _ hT)
      (by rw [q4']; exact hpspan _)
    rw [q4'] at y3 y5
    refine ⟨o', ?_, y2, y3, A, y4, y5, y6⟩
    unfold OrdOps.baseFacet
    simp only [hsv.space, q1, y1, assertThat, decide_true, if_true, Option.bind_eq_bind, Option.bind_some]
    rfl)
  -- the cones over the simplices
  have hfull : ∀ T ∈ c.simps v n, Full K (insert p (T.image g)) := by
    intro T hT
    obtain ⟨s, hs, rfl⟩ := mem_simps.1 hT
    obtain ⟨-, -, A, -, A2, A3⟩ := Gb2 s hs
    exact ((hi.hull.full _ hT).cone hg.inj hfr (m := A) (fun x hx => A2 _ (Finset.mem_image_of_mem _ hx)) A3.ne').2
  obtain ⟨Gc, Gc1, Gc2⟩ := mapM_choose (L := c.interior) (f := S.coneSimplex e1 last) (Q := fun s t =>
      t.Valid v (n + 1) e1.ambient ∧ t.verts v (n + 1) = insert p ((s.verts v n).image g)) (by
    intro s hs
    have hsv := hi.interior s hs
    obtain ⟨qs, q1, q2, q3, q4, -⟩ := hg.embedAll (pts := s.points) (fun q hq => x2 ▸ hsv.points.mem q hq)
    have hT : s.verts v n ∈ c.simps v n := mem_simps.2 ⟨s, hs, rfl⟩
    have q4' : vertsOf v (n + 1) qs = (s.verts v n).image g := q4
    have hv : vertsOf v (n + 1) (qs ++ [last]) = insert p ((s.verts v n).image g) := by rw [vertsOf_append, q4']
    have hind : Independent v (n + 1) e1.ambient (qs ++ [last]) := by
      apply independent_of_verts
      · intro q hq
        rcases List.mem_append.1 hq with hq | hq
        · exact q3 q hq
        · rw [List.mem_singleton.1 hq]; exact x3 ▸ hlast
      · rw [hv]; exact (hfull _ hT).indep
      · rw [hv, (hfull _ hT).card, List.length_append, q2, hi.simplex_len hs, Module.finrank_fin_fun]; rfl
    obtain ⟨t, t1, t2, t3⟩ := h.simplexUnwrap hd1 hind
    refine ⟨t, ?_, t2, by rw [← hv]; exact vertsOf_perm t3⟩
    unfold OrdOps.coneSimplex
    simp only [q1, t1, Option.bind_eq_bind, Option.bind_some])
  -- the cones over the facets
  obtain ⟨Gf, Gf1, Gf2⟩ := mapM_choose (L := c.facets) (f := S.coneFacet c.subspace e1 last) (Q := fun fc o' =>
      o'.Valid S v (n + 1) e1.ambient ∧ o'.simplex.verts v (n + 1) = insert p ((fc.simplex.verts v n).image g) ∧
      ∃ A, o'.Fits S v (n + 1) e1.ambient A ∧ (∀ x ∈ insert p ((fc.simplex.verts v n).image g), A x = 0) ∧
        ∃ x, 0 < l (fc.simplex.verts v n) x ∧ 0 < A (g x)) (by
    intro fc hfc
    have hfv := hi.facets fc hfc
    have hF : fc.simplex.verts v n ∈ c.facs v n := mem_facs.2 ⟨fc, hfc, rfl⟩
    set F := fc.simplex.verts v n with hFdef
    obtain ⟨T, hT, i, hiT, heF⟩ := hi.hull.facet hF
    obtain ⟨qs, q1, q2, q3, q4, -⟩ := hg.embedAll (pts := fc.simplex.points) (fun q hq => x2 ▸ hfv.simplex.points.mem q hq)
    have q4' : vertsOf v (n + 1) qs = F.image g := q4
    have hv : vertsOf v (n + 1) (qs ++ [last]) = insert p (F.image g) := by rw [vertsOf_append, q4']
    -- the reference point
    have href : ∃ r0 r : Vec α, r0.In c.subspace.embedded ∧ r.In e1.ambient ∧ r.val v (n + 1) = g (r0.val v n) ∧ 0 < l F (r0.val v n) ∧
        (match fc.orientation with
          | some (_, pos) => S.embedPoint e1 pos
          | none => do
            assertThat (c.subspace.embedded.dim == 1)
            let origin ← S.origin c.subspace.embedded
            let origin ← origin
            S.embedPoint e1 origin) = some r := by
      rcases hor : fc.orientation with _ | ⟨fl, pos⟩
      · have h0 := hfv.empty.1 hor
        obtain ⟨og, og1, og2, -⟩ := Vec.construct_some (sp := c.subspace.embedded) v (f := fun _ => some S.zero) (x := fun _ : Fin n => 0) hdim (by
          intro i; exact ⟨_, rfl, h.toDomain.toRing.toSemi.zero⟩)
        obtain ⟨r, r1, r2, r3⟩ := hg.embed og (x2 ▸ og2)
        refine ⟨og, r, og2, r2, r3, by rw [(hi.fits fc hfc).1 h0]; exact one_pos, ?_⟩
        have hor2 : S.origin c.subspace.embedded = some (some og) := by
          unfold OrdOps.origin
          rw [og1]; rfl
        have hd0 : c.subspace.embedded.dim = 1 := by rw [hdim, h0]
        simp only [hor2, hd0, assertThat, beq_self_eq_true, if_true, Option.bind_eq_bind, Option.bind_some, r1]
      · obtain ⟨p1, p2⟩ := hfv.reference fl pos hor
        have hn0 : n ≠ 0 := fun e => by rw [hfv.empty.2 e] at hor; cases hor
        obtain ⟨side, s1, -, s3⟩ := OSimplex.Fits.classify h hfv (hi.fits fc hfc) p1
        rw [p2] at s1
        cases s1
        obtain ⟨r, r1, r2, r3⟩ := hg.embed pos (x2 ▸ p1)
        exact ⟨pos, r, p1, r2, r3, (s3 hn0).1.1 rfl, r1⟩
    obtain ⟨r0, r, r01, r1, r2, r3, r4⟩ := href
    have hsub : insert p (F.image g) = (insert p (T.image g)).erase (g i) := by
      rw [Finset.erase_insert_of_ne (hpr i).symm, ← heF, Finset.image_erase hg.inj]
    have hgi : g i ∈ insert p (T.image g) := Finset.mem_insert_of_mem (Finset.mem_image_of_mem _ hiT)
    have hcard : (insert p (F.image g)).card = n + 1 := by
      rw [hsub, Finset.card_erase_of_mem hgi, (hfull T hT).card, Module.finrank_fin_fun]; rfl
    have hind : AffineIndependent K (fun x : (insert p (F.image g) : Finset (Fin (n + 1) → K)) => (x : Fin (n + 1) → K)) := by
      rw [hsub]
      exact (hfull T hT).indep.mono (s := (((insert p (T.image g)).erase (g i) : Finset (Fin (n + 1) → K)) : Set (Fin (n + 1) → K)))
          (t := ((insert p (T.image g) : Finset (Fin (n + 1) → K)) : Set (Fin (n + 1) → K))) (by intro x hx; exact Finset.mem_of_mem_erase hx)
    have hrn : r.val v (n + 1) ∉ affineSpan K ((insert p (F.image g) : Finset (Fin (n + 1) → K)) : Set (Fin (n + 1) → K)) := by
      intro hr
      let A' := crd K (insert p (T.image g)) (g i)
      have hA0 : ∀ x ∈ insert p (F.image g), A' x = 0 := by
        intro x hx
        rw [hsub] at hx
        exact crd_ne (hfull T hT) hgi (Finset.mem_of_mem_erase hx) (Finset.ne_of_mem_erase hx).symm
      have h1 := affine_zero_span (A := A') (fun x hx => hA0 x hx) hr
      rw [r2] at h1
      have h2 := affine_eq_single (hi.hull.full T hT) (A'.comp g) hiT (fun j hj => hA0 _ (Finset.mem_insert_of_mem (Finset.mem_image_of_mem _ (heF ▸ hj)))) (r0.val v n)
      have h3 := (hi.hull.facet_fun hF hT hiT heF).2 (r0.val v n)
      rw [AffineMap.comp_apply, AffineMap.comp_apply, h1] at h2
      have h4 : A' (g i) = 1 := crd_self (hfull T hT) hgi
      rw [h4, mul_one] at h2
      rw [← h2, zero_mul] at h3
      exact r3.ne' h3
    obtain ⟨o', y1, y2, y3, A, y4, y5, y6⟩ := h.newFacet hd1 (pts := qs ++ [last]) (ref := r) (by
        intro q hq
        rcases List.mem_append.1 hq with hq | hq
        · exact q3 q hq
        · rw [List.mem_singleton.1 hq]; exact x3 ▸ hlast) r1 (by rw [List.length_append, q2, hfv.length]; rfl)
      (by rw [hv, hcard]) (by rw [hv]; exact hind) (by rw [hv]; exact hrn)
    rw [hv] at y3 y5
    refine ⟨o', ?_, y2, y3, A, y4, y5, r0.val v n, r3, r2 ▸ y6⟩
    unfold OrdOps.coneFacet
    simp only [hfv.simplex.space, q1, assertThat, decide_true, if_true, Option.bind_eq_bind, Option.bind_some]
    simp only [assertThat, Option.bind_eq_bind] at r4
    rcases hor : fc.orientation with _ | ⟨fl, pos⟩
    · simp only [hor] at r4 ⊢
      simp only [Option.bind_eq_some_iff] at r4
      obtain ⟨_, a1, og, a2, og', a3, a4⟩ := r4
      simp only [a1, a2, a3, a4, y1, Option.bind_some]
      rfl
    · simp only [hor] at r4 ⊢
      simp only [r4, y1, Option.bind_some]
      rfl)
  -- the new functions
  let Q : Finset (Fin (n + 1) → K) → ((Fin (n + 1) → K) →ᵃ[K] K) → Prop := fun F A =>
    (∃ s ∈ c.interior, (s.verts v n).image g = F ∧ (Gb s).Fits S v (n + 1) e1.ambient A ∧ (∀ x ∈ F, A x = 0) ∧ 0 < A p) ∨
    ∃ fc ∈ c.facets, insert p ((fc.simplex.verts v n).image g) = F ∧ (Gf fc).Fits S v (n + 1) e1.ambient A ∧ (∀ x ∈ F, A x = 0) ∧
      ∃ x, 0 < l (fc.simplex.verts v n) x ∧ 0 < A (g x)
  let l' : Finset (Fin (n + 1) → K) → (Fin (n + 1) → K) →ᵃ[K] K := fun F => if hQ : ∃ A, Q F A then Classical.choose hQ else AffineMap.const K _ 1
  have hlQ : ∀ F, (∃ A, Q F A) → Q F (l' F) := by
    intro F hQ
    simp only [l', dif_pos hQ]
    exact Classical.choose_spec hQ
  have hl1 : ∀ s ∈ c.interior, (Gb s).Fits S v (n + 1) e1.ambient (l' ((s.verts v n).image g)) ∧ (∀ x ∈ (s.verts v n).image g, l' ((s.verts v n).image g) x = 0) ∧
      0 < l' ((s.verts v n).image g) p := by
    intro s hs
    obtain ⟨-, -, A, A1, A2, A3⟩ := Gb2 s hs
    rcases hlQ _ ⟨A, .inl ⟨s, hs, rfl, A1, A2, A3⟩⟩ with ⟨s', hs', h1, h2⟩ | ⟨fc, -, h1, -⟩
    · obtain rfl := List.inj_on_of_nodup_map hi.nodupI hs' hs (hinjF h1)
      exact h2
    · exact absurd (h1 ▸ Finset.mem_insert_self p _) (hpi (s.verts v n))
  have hl2 : ∀ fc ∈ c.facets, (Gf fc).Fits S v (n + 1) e1.ambient (l' (insert p ((fc.simplex.verts v n).image g))) ∧
      (∀ x ∈ insert p ((fc.simplex.verts v n).image g), l' (insert p ((fc.simplex.verts v n).image g)) x = 0) ∧
      ∃ x, 0 < l (fc.simplex.verts v n) x ∧ 0 < l' (insert p ((fc.simplex.verts v n).image g)) (g x) := by
    intro fc hfc
    obtain ⟨-, -, A, A1, A2, A3⟩ := Gf2 fc hfc
    rcases hlQ _ ⟨A, .inr ⟨fc, hfc, rfl, A1, A2, A3⟩⟩ with ⟨s', hs', h1, h2⟩ | ⟨fc', hfc', h1, h2⟩
    · exact absurd (h1 ▸ Finset.mem_insert_self p ((fc.simplex.verts v n).image g)) (hpi (s'.verts v n))
    · obtain rfl := List.inj_on_of_nodup_map hi.nodup hfc' hfc (hinjI _ _ h1)
      exact h2
  let c' : Hull α := ⟨c.ambient, e2, c.facets.map Gf ++ c.interior.map Gb, c.interior.map Gc⟩
  have hres : S.extendOutside o c pt = some c' := by
    unfold OrdOps.extendOutside
    simp only [x1, x3, assertThat, decide_true, if_true, Option.bind_eq_bind, Option.bind_some, Gf1, Gb1, Gc1]
    rfl
  have hsimps : c'.simps v (n + 1) = (c.simps v n).image fun T => insert p (T.image g) := by
    ext T
    rw [mem_simps, Finset.mem_image]
    simp only [c', List.mem_map]
    constructor
    · rintro ⟨_, ⟨s, hs, rfl⟩, rfl⟩
      exact ⟨_, mem_simps.2 ⟨s, hs, rfl⟩, (Gc2 s hs).2.symm⟩
    · rintro ⟨T, hT, rfl⟩
      obtain ⟨s, hs, rfl⟩ := mem_simps.1 hT
      exact ⟨_, ⟨s, hs, rfl⟩, (Gc2 s hs).2⟩
  have hfacs : c'.facs v (n + 1) = ((c.simps v n).image fun T => T.image g) ∪ (c.facs v n).image fun F => insert p (F.image g) := by
    ext T
    rw [mem_facs, Finset.mem_union, Finset.mem_image, Finset.mem_image]
    simp only [c', List.mem_append, List.mem_map]
    constructor
    · rintro ⟨_, ⟨fc, hfc, rfl⟩ | ⟨s, hs, rfl⟩, rfl⟩
      · exact .inr ⟨_, mem_facs.2 ⟨fc, hfc, rfl⟩, (Gf2 fc hfc).2.1.symm⟩
      · exact .inl ⟨_, mem_simps.2 ⟨s, hs, rfl⟩, (Gb2 s hs).2.1.symm⟩
    · rintro (⟨T, hT, rfl⟩ | ⟨F, hF, rfl⟩)
      · obtain ⟨s, hs, rfl⟩ := mem_simps.1 hT
        exact ⟨_, .inr ⟨s, hs, rfl⟩, (Gb2 s hs).2.1⟩
      · obtain ⟨fc, hfc, rfl⟩ := mem_facs.1 hF
        exact ⟨_, .inl ⟨fc, hfc, rfl⟩, (Gf2 fc hfc).2.1⟩
  have hhull : IsHull (c'.simps v (n + 1)) (c'.facs v (n + 1)) l' := by
    rw [hsimps, hfacs]
    refine hi.hull.raise hg.inj hfr ?_ ?_
    · intro T hT
      obtain ⟨s, hs, rfl⟩ := mem_simps.1 hT
      obtain ⟨-, h2, h3⟩ := hl1 s hs
      exact ⟨fun x hx => h2 _ (Finset.mem_image_of_mem _ hx), h3⟩
    · intro F hF
      obtain ⟨fc, hfc, rfl⟩ := mem_facs.1 hF
      obtain ⟨-, h2, h3⟩ := hl2 fc hfc
      exact ⟨fun x hx => h2 _ (Finset.mem_insert_of_mem (Finset.mem_image_of_mem _ hx)), h2 _ (Finset.mem_insert_self _ _), h3⟩
  obtain ⟨T0, hT0⟩ := hi.hull.nonempty
  have hproper : Proper K (c'.simps v (n + 1)) := by
    rw [hsimps]
    obtain ⟨s, hs, hsT⟩ := mem_simps.1 hT0
    obtain ⟨-, h2, h3⟩ := hl1 s hs
    refine hi.hull.raise_proper hi.proper hg.inj (m := l' ((s.verts v n).image g)) ?_ h3
    intro x
    exact affine_ext_zero (hi.hull.full _ hT0) ((l' ((s.verts v n).image g)).comp g) (fun j hj => h2 _ (Finset.mem_image_of_mem _ (hsT ▸ hj))) x
  refine ⟨c', f2, l', hres, ⟨v2, x4.trans hi.amb, hn2, hf2, ?_, ?_, ?_, ?_, by simp, hhull, hproper, ?_, ?_, ?_⟩, rfl, x5, fun T hT => ⟨_, by rw [hsimps]; exact Finset.mem_image_of_mem _ hT, ?_⟩⟩
  · intro o' ho'
    rw [← x3]
    rcases List.mem_append.1 ho' with ho' | ho'
    · obtain ⟨fc, hfc, rfl⟩ := List.mem_map.1 ho'
      exact (Gf2 fc hfc).1
    · obtain ⟨s, hs, rfl⟩ := List.mem_map.1 ho'
      exact (Gb2 s hs).1
  · intro s' hs'
    rw [← x3]
    obtain ⟨s, hs, rfl⟩ := List.mem_map.1 hs'
    exact (Gc2 s hs).1
  · simp only [c']
    rw [List.map_append, List.nodup_append, List.map_map, List.map_map]
    refine ⟨?_, ?_, ?_⟩
    · refine hi.nodup.of_map.map_on ?_
      intro a ha b hb' hab
      simp only [Function.comp, (Gf2 a ha).2.1, (Gf2 b hb').2.1] at hab
      exact List.inj_on_of_nodup_map hi.nodup ha hb' (hinjI _ _ hab)
    · refine hi.nodupI.of_map.map_on ?_
      intro a ha b hb' hab
      simp only [Function.comp, (Gb2 a ha).2.1, (Gb2 b hb').2.1] at hab
      exact List.inj_on_of_nodup_map hi.nodupI ha hb' (hinjF hab)
    · rintro F hF F' hF' rfl
      obtain ⟨fc, hfc, h1⟩ := List.mem_map.1 hF
      obtain ⟨s, hs, h2⟩ := List.mem_map.1 hF'
      simp only [Function.comp, (Gf2 fc hfc).2.1] at h1
      simp only [Function.comp, (Gb2 s hs).2.1] at h2
      apply hpi (s.verts v n)
      rw [h2, ← h1]
      exact Finset.mem_insert_self _ _
  · simp only [c']
    rw [List.map_map]
    refine hi.nodupI.of_map.map_on ?_
    intro a ha b hb' hab
    simp only [Function.comp, (Gc2 a ha).2, (Gc2 b hb').2] at hab
    exact List.inj_on_of_nodup_map hi.nodupI ha hb' (hinjI _ _ hab)
  · intro o' ho'
    rw [← x3]
    rcases List.mem_append.1 ho' with ho' | ho'
    · obtain ⟨fc, hfc, rfl⟩ := List.mem_map.1 ho'
      rw [(Gf2 fc hfc).2.1]
      exact (hl2 fc hfc).1
    · obtain ⟨s, hs, rfl⟩ := List.mem_map.1 ho'
      rw [(Gb2 s hs).2.1]
      exact (hl1 s hs).1
  · intro T hT x hx
    rw [hsimps, Finset.mem_image] at hT
    obtain ⟨T, hT, rfl⟩ := hT
    rcases Finset.mem_insert.1 hx with rfl | hx
    · exact .inl hfp
    · obtain ⟨y, hy, rfl⟩ := Finset.mem_image.1 hx
      rw [hfx]
      exact .inr (hi.verts T hT y hy)
  · intro x hx
    rcases hx with rfl | hx
    · apply subset_convexHull
      refine ⟨p, ⟨_, ?_, Finset.mem_insert_self p (T0.image g)⟩, hfp⟩
      rw [hsimps]
      exact Finset.mem_image_of_mem (fun T => insert p (T.image g)) hT0
    · refine convexHull_mono ?_ (hi.conv hx)
      rintro _ ⟨y, ⟨T, hT, hy⟩, rfl⟩
      refine ⟨g y, ⟨insert p (T.image g), ?_, Finset.mem_insert_of_mem (Finset.mem_image_of_mem _ hy)⟩, hfx y⟩
      rw [hsimps]
      exact Finset.mem_image_of_mem (fun T => insert p (T.image g)) hT
  · intro y hy
    obtain ⟨x, hx, rfl⟩ := Finset.mem_image.1 hy
    rw [← hfx x]
    exact Finset.mem_image_of_mem _ (Finset.mem_insert_of_mem (Finset.mem_image_of_mem _ hx))

end

end Verif.Geometry
