import Verif.Proofs.HullInside

/-! # Extending a hull by a point of its affine span: the new hull -/

namespace Verif.Geometry

open Classical Verif.Rings

noncomputable local instance (priority := 5000) decPt5 (K : Type) (d : Nat) : DecidableEq (Fin d → K) := fun a b => Classical.propDecidable (a = b)

section
variable {α K : Type} [Field K] [LinearOrder K] [IsStrictOrderedRing K] {S : OrdOps α} {v : α → K} {D n : Nat} {sp : Space}
  {c : Hull α} {P : Set (Fin D → K)} {f : (Fin n → K) →ᵃ[K] (Fin D → K)} {l : Finset (Fin n → K) → (Fin n → K) →ᵃ[K] K}

theorem filter_facs {fs : List (OSimplex α)} (p : Finset (Fin n → K) → Prop) [DecidablePred p] :
    ((fs.filter fun o => p (o.simplex.verts v n)).map fun o => o.simplex.verts v n).toFinset =
      ((fs.map fun o => o.simplex.verts v n).toFinset).filter p := by
  ext F
  simp only [List.mem_toFinset, List.mem_map, List.mem_filter, Finset.mem_filter, decide_eq_true_eq]
  constructor
  · rintro ⟨o, ⟨ho, hp⟩, rfl⟩
    exact ⟨⟨o, ho, rfl⟩, hp⟩
  · rintro ⟨⟨o, ho, rfl⟩, hp⟩
    exact ⟨o, ⟨ho, hp⟩, rfl⟩

/-- a facet made from its vertices and a reference point -/
theorem OrdOps.Models.newFacet (h : S.Models v) (hd : sp.dim = n + 1) {pts : List (Vec α)} {ref : Vec α} (hp : ∀ p ∈ pts, p.In sp) (hr : ref.In sp)
    (hlen : pts.length = n) (hc : (vertsOf v n pts).card = n) (hi : AffineIndependent K (fun x : vertsOf v n pts => (x : Fin n → K)))
    (hspan : ref.val v n ∉ affineSpan K (vertsOf v n pts : Set (Fin n → K))) :
    ∃ o, S.newPositive sp pts ref = some (.ok o) ∧ o.Valid S v n sp ∧ o.simplex.verts v n = vertsOf v n pts ∧
      ∃ A, o.Fits S v n sp A ∧ (∀ x ∈ vertsOf v n pts, A x = 0) ∧ 0 < A (ref.val v n) := by
  rcases h.newPositive hd hp hr with ⟨-, -, -, o, o1, o2, o3, o4⟩ | ⟨h1, -⟩
  · have hv : o.simplex.verts v n = vertsOf v n pts := vertsOf_perm o3
    obtain ⟨A, A1, A2, A3, A4⟩ := o2.fits h hd
    refine ⟨o, o1, o2, hv, A, A1, fun x hx => A2 x (hv ▸ hx), ?_⟩
    by_cases h0 : n = 0
    · rw [A1.1 h0]; exact one_pos
    · obtain ⟨f', hf'⟩ := o4 h0
      exact A4 f' ref hf'
  · refine absurd ⟨hlen, ?_, ?_⟩ h1
    · exact (independent_of_verts hp hi (by rw [hc, hlen])).indep
    · rw [← coe_vertsOf]; exact hspan

theorem HullInv.extendInside (hi : HullInv S v D n c P f l) (h : S.Models v) (o : Oracle α) (ho : ∀ L, (o.ridges [] L).Perm L) {q : Vec α}
    (hq : q.In c.subspace.embedded) :
    ∃ c' l', S.extendInside o c q = some c' ∧ HullInv S v D n c' (insert (f (q.val v n)) P) f l' ∧ c'.ambient = c.ambient ∧ c.simps v n ⊆ c'.simps v n := by
  have hd := hi.dim
  set p : Fin n → K := q.val v n with hpdef
  set V := c.facets.filter (fun o => l (o.simplex.verts v n) p < 0) with hV
  set H := c.facets.filter (fun o => 0 ≤ l (o.simplex.verts v n) p) with hH
  have hpart := partitionFacets_eq h hq hi.facets hi.fits
  have hVsub : V.Sublist c.facets := List.filter_sublist
  have hHsub : H.Sublist c.facets := List.filter_sublist
  have hVn : (V.map fun o => o.simplex.verts v n).Nodup := hi.nodup.sublist (hVsub.map _)
  have hHn : (H.map fun o => o.simplex.verts v n).Nodup := hi.nodup.sublist (hHsub.map _)
  have hVf : (V.map fun o => o.simplex.verts v n).toFinset = (c.facs v n).filter fun F => l F p < 0 := filter_facs (v := v) (fs := c.facets) (fun F => l F p < 0)
  have hHf : (H.map fun o => o.simplex.verts v n).toFinset = (c.facs v n).filter fun F => 0 ≤ l F p := filter_facs (v := v) (fs := c.facets) (fun F => 0 ≤ l F p)
  have hVm : ∀ o ∈ V, o ∈ c.facets ∧ l (o.simplex.verts v n) p < 0 := fun o ho => by simpa [hV] using ho
  have hHm : ∀ o ∈ H, o ∈ c.facets ∧ 0 ≤ l (o.simplex.verts v n) p := fun o ho => by simpa [hH] using ho
  obtain ⟨r, r1, r2, r3, r4⟩ := h.horizon hd (fun o ho => hi.facets o (hVm o ho).1) hVn
  obtain ⟨ra, a1, a2, a3, a4⟩ := h.horizonAlt hd (fun o ho => hi.facets o (hHm o ho).1) hHn
  rw [hVf] at r4
  rw [hHf] at a4
  -- the two horizons agree
  have hpar : ∀ R, Odd (((c.facs v n).filter fun F => l F p < 0).filter (IsFace R)).card ↔
      Odd (((c.facs v n).filter fun F => 0 ≤ l F p).filter (IsFace R)).card := by
    intro R
    have h1 := hi.hull.ridge_even R
    have h2 : ((c.facs v n).filter (IsFace R)).card = (((c.facs v n).filter fun F => l F p < 0).filter (IsFace R)).card +
        (((c.facs v n).filter fun F => 0 ≤ l F p).filter (IsFace R)).card := by
      rw [← Finset.card_union_of_disjoint]
      · congr 1
        ext F
        simp only [Finset.mem_filter, Finset.mem_union]
        rcases lt_or_ge (l F p) 0 with hh | hh
        · simp [hh, not_le.2 hh]
        · simp [hh, not_lt.2 hh]
      · rw [Finset.disjoint_left]
        intro F h1 h2
        simp only [Finset.mem_filter] at h1 h2
        exact absurd h2.1.2 (not_le.2 h1.1.2)
    rw [h2, Nat.even_add] at h1
    rw [← Nat.not_even_iff_odd, ← Nat.not_even_iff_odd, h1]
  have heq : hashSetEq S.simplexEq (r.map Prod.fst) (ra.map Prod.fst) = some true := by
    apply hashSetEq_true (P := fun t => t.Valid v n c.subspace.embedded) (key := fun t : Simplex α => t.verts v n)
      (fun x y hx hy => h.simplexEq_verts hd hx hy)
    · intro y hy; obtain ⟨e, he, rfl⟩ := List.mem_map.1 hy; exact (r2 e he).1
    · intro y hy; obtain ⟨e, he, rfl⟩ := List.mem_map.1 hy; exact a2 e he
    · rw [List.map_map]; exact r3
    · rw [List.map_map]; exact a3
    · intro R
      rw [List.map_map, List.map_map]
      exact (r4 R).trans ((hpar R).trans (a4 R).symm)
  -- facts about visible facets
  have hvis : ∀ F ∈ c.facs v n, l F p < 0 → p ∉ F ∧ Full K (insert p F) := fun F hF hv => hi.hull.full_insert hF hv.ne
  have hflen : ∀ o ∈ c.facets, o.simplex.points.length = n := fun o ho => (hi.facets o ho).length
  have hkey : ∀ e ∈ r, ∃ F ∈ c.facs v n, l F p < 0 ∧ e.2.val v n ∈ F ∧ e.1.verts v n = F.erase (e.2.val v n) ∧ e.2.In c.subspace.embedded ∧ F.card = n := by
    intro e he
    obtain ⟨-, o, ho, h1, h2⟩ := r2 e he
    refine ⟨_, mem_facs.2 ⟨o, (hVm o ho).1, rfl⟩, (hVm o ho).2, mem_vertsOf.2 ⟨_, h1, rfl⟩, h2, (hi.facets o (hVm o ho).1).simplex.points.mem _ h1, ?_⟩
    exact (hi.facets o (hVm o ho).1).simplex.points.verts_card.trans (hflen o (hVm o ho).1)
  -- the new facets
  have hnew : ∀ e ∈ r, ∃ o', (S.newPositive c.subspace.embedded (e.1.points ++ [q]) e.2).bind Except.toOption = some o' ∧
      o'.Valid S v n c.subspace.embedded ∧ o'.simplex.verts v n = insert p (e.1.verts v n) ∧
      ∃ A, o'.Fits S v n c.subspace.embedded A ∧ (∀ x ∈ insert p (e.1.verts v n), A x = 0) ∧ 0 < A (e.2.val v n) := by
    intro e he
    obtain ⟨F, hF, hv, hm, hR, hin, hcard⟩ := hkey e he
    obtain ⟨hpF, hfull⟩ := hvis F hF hv
    have hval := (r2 e he).1
    have hpR : p ∉ e.1.verts v n := by rw [hR]; exact fun hh => hpF (Finset.mem_of_mem_erase hh)
    have hverts : vertsOf v n (e.1.points ++ [q]) = insert p (e.1.verts v n) := vertsOf_append _ _
    have hsub : insert p (e.1.verts v n) = (insert p F).erase (e.2.val v n) := by
      rw [hR, Finset.erase_insert_of_ne]
      exact fun hh => hpF (hh ▸ hm)
    have hRc : (e.1.verts v n).card = n - 1 := by rw [hR, Finset.card_erase_of_mem hm, hcard]
    have hn0 : 0 < n := by rw [← hcard]; exact Finset.card_pos.2 ⟨_, hm⟩
    have hc2 : (insert p (e.1.verts v n)).card = n := by rw [Finset.card_insert_of_notMem hpR, hRc]; omega
    have hlen : (e.1.points ++ [q]).length = n := by
      have := hval.points.verts_card
      rw [List.length_append, ← this]
      change (e.1.verts v n).card + 1 = n
      omega
    obtain ⟨o', h1, h2, h3, A, h4, h5, h6⟩ := h.newFacet hd (pts := e.1.points ++ [q]) (ref := e.2) (by
        intro x hx
        rcases List.mem_append.1 hx with hx | hx
        · exact hval.points.mem x hx
        · rw [List.mem_singleton.1 hx]; exact hq) hin hlen (by rw [hverts, hc2]) (by
        rw [hverts, hsub]
        exact hfull.indep.mono (s := (((insert p F).erase (e.2.val v n) : Finset (Fin n → K)) : Set (Fin n → K)))
          (t := ((insert p F : Finset (Fin n → K)) : Set (Fin n → K))) (by intro x hx; exact Finset.mem_of_mem_erase hx)) (by
        rw [hverts, hsub]
        exact notMem_span_erase hfull.indep (Finset.mem_insert_of_mem hm))
    rw [hverts] at h3 h5
    exact ⟨o', by rw [h1]; rfl, h2, h3, A, h4, h5, h6⟩
  let g : Simplex α × Vec α → OSimplex α := fun e => if he : e ∈ r then Classical.choose (hnew e he) else ⟨e.1, none⟩
  have hg : ∀ e ∈ r, (S.newPositive c.subspace.embedded (e.1.points ++ [q]) e.2).bind Except.toOption = some (g e) ∧
      (g e).Valid S v n c.subspace.embedded ∧ (g e).simplex.verts v n = insert p (e.1.verts v n) ∧
      ∃ A, (g e).Fits S v n c.subspace.embedded A ∧ (∀ x ∈ insert p (e.1.verts v n), A x = 0) ∧ 0 < A (e.2.val v n) := by
    intro e he
    simp only [g, dif_pos he]
    exact Classical.choose_spec (hnew e he)
  have hperm := ho r
  have hnewM : ((o.ridges [] r).mapM fun e => (S.newPositive c.subspace.embedded (e.1.points ++ [q]) e.2).bind fun r => r.toOption) =
      some ((o.ridges [] r).map g) := mapM_eq_map _ (fun e he => (hg e (hperm.mem_iff.1 he)).1)
  -- the cones
  have hcone : ∀ o' ∈ V, ∃ s, S.simplexUnwrap c.subspace.embedded (o'.simplex.points ++ [q]) = some s ∧ s.Valid v n c.subspace.embedded ∧
      s.verts v n = insert p (o'.simplex.verts v n) := by
    intro o' ho'
    obtain ⟨h1, h2⟩ := hVm o' ho'
    obtain ⟨hpF, hfull⟩ := hvis _ (mem_facs.2 ⟨o', h1, rfl⟩) h2
    have hverts : vertsOf v n (o'.simplex.points ++ [q]) = insert p (o'.simplex.verts v n) := vertsOf_append _ _
    have hind : Independent v n c.subspace.embedded (o'.simplex.points ++ [q]) := by
      apply independent_of_verts
      · intro x hx
        rcases List.mem_append.1 hx with hx | hx
        · exact (hi.facets o' h1).simplex.points.mem x hx
        · rw [List.mem_singleton.1 hx]; exact hq
      · rw [hverts]; exact hfull.indep
      · rw [hverts, Finset.card_insert_of_notMem hpF, List.length_append, ← (hi.facets o' h1).simplex.points.verts_card]; rfl
    obtain ⟨s, s1, s2, s3⟩ := h.simplexUnwrap hd hind
    exact ⟨s, s1, s2, by rw [← hverts]; exact vertsOf_perm s3⟩
  let gc : OSimplex α → Simplex α := fun o' => (S.simplexUnwrap c.subspace.embedded (o'.simplex.points ++ [q])).getD ⟨c.ambient, []⟩
  have hgc : ∀ o' ∈ V, S.simplexUnwrap c.subspace.embedded (o'.simplex.points ++ [q]) = some (gc o') ∧ (gc o').Valid v n c.subspace.embedded ∧
      (gc o').verts v n = insert p (o'.simplex.verts v n) := by
    intro o' ho'
    obtain ⟨s, s1, s2, s3⟩ := hcone o' ho'
    have : gc o' = s := by simp only [gc, s1, Option.getD_some]
    rw [this]; exact ⟨s1, s2, s3⟩
  have hconeM : (V.mapM fun f => S.simplexUnwrap c.subspace.embedded (f.simplex.points ++ [q])) = some (V.map gc) :=
    mapM_eq_map _ (fun o' ho' => (hgc o' ho').1)
  -- the new functions
  let Q : Finset (Fin n → K) → ((Fin n → K) →ᵃ[K] K) → Prop := fun F A => ∃ e ∈ r, insert p (e.1.verts v n) = F ∧ (g e).Fits S v n c.subspace.embedded A ∧
    (∀ x ∈ insert p (e.1.verts v n), A x = 0) ∧ 0 < A (e.2.val v n)
  let l' : Finset (Fin n → K) → (Fin n → K) →ᵃ[K] K := fun F =>
    if F ∈ (c.facs v n).filter (fun F => 0 ≤ l F p) then l F else if hQ : ∃ A, Q F A then Classical.choose hQ else AffineMap.const K _ 1
  have hl1 : ∀ F ∈ c.facs v n, 0 ≤ l F p → l' F = l F := by
    intro F hF hv
    simp only [l']
    rw [if_pos (Finset.mem_filter.2 ⟨hF, hv⟩)]
  have hpG : ∀ e ∈ r, ∀ G ∈ c.facs v n, p ∉ G := by
    intro e he G hG hp
    obtain ⟨F, hF, hv, -⟩ := hkey e he
    exact absurd (hi.hull.nonneg_facet hG hF hp) (not_le.2 hv)
  have hpE : ∀ e ∈ r, p ∉ e.1.verts v n := by
    intro e he
    obtain ⟨F, hF, hv, hm, hR, -⟩ := hkey e he
    rw [hR]; exact fun hh => (hvis F hF hv).1 (Finset.mem_of_mem_erase hh)
  have hl2 : ∀ e ∈ r, Q (insert p (e.1.verts v n)) (l' (insert p (e.1.verts v n))) := by
    intro e he
    simp only [l']
    rw [if_neg]
    · have hQ : ∃ A, Q (insert p (e.1.verts v n)) A := by
        obtain ⟨-, -, -, A, A1, A2, A3⟩ := hg e he
        exact ⟨A, e, he, rfl, A1, A2, A3⟩
      rw [dif_pos hQ]
      exact Classical.choose_spec hQ
    · intro hh
      exact hpG e he _ (Finset.mem_filter.1 hh).1 (Finset.mem_insert_self _ _)
  have hinj : ∀ e ∈ r, ∀ e' ∈ r, insert p (e.1.verts v n) = insert p (e'.1.verts v n) → e = e' := by
    intro e he e' he' hee
    have := congrArg (fun T : Finset (Fin n → K) => T.erase p) hee
    simp only [Finset.erase_insert (hpE e he), Finset.erase_insert (hpE e' he')] at this
    exact List.inj_on_of_nodup_map r3 he he' this
  let c' : Hull α := ⟨c.ambient, c.subspace, (o.ridges [] r).map g ++ H, V.map gc ++ c.interior⟩
  have hres : S.extendInside o c q = some c' := by
    unfold OrdOps.extendInside
    simp only [hpart, ← hpdef, ← hV, ← hH, r1, a1, heq, assertThat, if_true, Option.bind_eq_bind, Option.bind_some, hnewM, hconeM]
    rfl
  have hsimps : c'.simps v n = c.simps v n ∪ ((c.facs v n).filter fun F => l F p < 0).image (insert p) := by
    ext T
    rw [mem_simps, Finset.mem_union, mem_simps, Finset.mem_image, ← hVf]
    simp only [c', List.mem_append, List.mem_map, List.mem_toFinset]
    constructor
    · rintro ⟨s, ⟨o', ho', rfl⟩ | hs, rfl⟩
      · exact .inr ⟨_, ⟨o', ho', rfl⟩, (hgc o' ho').2.2.symm⟩
      · exact .inl ⟨s, hs, rfl⟩
    · rintro (⟨s, hs, rfl⟩ | ⟨F, ⟨o', ho', rfl⟩, rfl⟩)
      · exact ⟨s, .inr hs, rfl⟩
      · exact ⟨_, .inl ⟨o', ho', rfl⟩, (hgc o' ho').2.2⟩
  have hodd : ∀ R, R ∈ oddRidges ((c.facs v n).filter fun F => l F p < 0) ↔ ∃ e ∈ r, e.1.verts v n = R := by
    intro R
    rw [mem_oddRidges, ← r4, List.mem_map]
  have hfacs : c'.facs v n = ((c.facs v n).filter fun F => 0 ≤ l F p) ∪ (oddRidges ((c.facs v n).filter fun F => l F p < 0)).image (insert p) := by
    ext T
    rw [mem_facs, Finset.mem_union, Finset.mem_image, ← hHf]
    simp only [c', List.mem_append, List.mem_map, List.mem_toFinset, hodd]
    constructor
    · rintro ⟨o', ⟨e, he, rfl⟩ | ho', rfl⟩
      · have he' := hperm.mem_iff.1 he
        exact .inr ⟨_, ⟨e, he', rfl⟩, (hg e he').2.2.1.symm⟩
      · exact .inl ⟨o', ho', rfl⟩
    · rintro (⟨o', ho', rfl⟩ | ⟨R, ⟨e, he, rfl⟩, rfl⟩)
      · exact ⟨o', .inr ho', rfl⟩
      · exact ⟨_, .inl ⟨e, hperm.mem_iff.2 he, rfl⟩, (hg e he).2.2.1⟩
  have hhull : IsHull (c'.simps v n) (c'.facs v n) l' := by
    rw [hsimps, hfacs]
    refine hi.hull.extend p hl1 ?_
    intro R hR
    obtain ⟨e, he, rfl⟩ := (hodd R).1 hR
    obtain ⟨e', he', h1, h2, h3, h4⟩ := hl2 e he
    obtain rfl := hinj e' he' e he h1
    obtain ⟨F, hF, hv, hm, hR', -⟩ := hkey e' he'
    exact ⟨h3, F, hF, hv, _, hm, hR'.symm, h4⟩
  have hmono : {x | ∃ T ∈ c.simps v n, x ∈ T} ⊆ {x | ∃ T ∈ c'.simps v n, x ∈ T} := by
    rintro x ⟨T, hT, hx⟩
    exact ⟨T, by rw [hsimps]; exact Finset.mem_union_left _ hT, hx⟩
  refine ⟨c', l', hres, ⟨hi.sub, hi.amb, hi.len, hi.map, ?_, ?_, ?_, ?_, ?_, hhull, by rw [hsimps]; exact hi.hull.extend_proper hi.proper p, ?_, ?_, ?_⟩, rfl, by rw [hsimps]; exact Finset.subset_union_left⟩
  · intro o' ho'
    rcases List.mem_append.1 ho' with ho' | ho'
    · obtain ⟨e, he, rfl⟩ := List.mem_map.1 ho'
      exact (hg e (hperm.mem_iff.1 he)).2.1
    · exact hi.facets o' (hHm o' ho').1
  · intro s hs
    rcases List.mem_append.1 hs with hs | hs
    · obtain ⟨o', ho', rfl⟩ := List.mem_map.1 hs
      exact (hgc o' ho').2.1
    · exact hi.interior s hs
  · simp only [c']
    rw [List.map_append, List.nodup_append]
    refine ⟨?_, hHn, ?_⟩
    · rw [List.map_map]
      have hrn : (o.ridges [] r).Nodup := (hperm.nodup_iff).2 r3.of_map
      refine hrn.map_on ?_
      intro e he e' he' hee
      have he := hperm.mem_iff.1 he
      have he' := hperm.mem_iff.1 he'
      simp only [Function.comp, (hg e he).2.2.1, (hg e' he').2.2.1] at hee
      exact hinj e he e' he' hee
    · rintro F hF G hG rfl
      obtain ⟨o1, ho1, e1⟩ := List.mem_map.1 hF
      obtain ⟨e, he, rfl⟩ := List.mem_map.1 ho1
      obtain ⟨o2, ho2, e2⟩ := List.mem_map.1 hG
      have he := hperm.mem_iff.1 he
      apply hpG e he F (mem_facs.2 ⟨o2, (hHm o2 ho2).1, e2⟩)
      rw [← e1, (hg e he).2.2.1]
      exact Finset.mem_insert_self _ _
  · simp only [c']
    rw [List.map_append, List.nodup_append, List.map_map]
    refine ⟨?_, hi.nodupI, ?_⟩
    · refine hVn.of_map.map_on ?_
      intro o1 h1 o2 h2 hee
      simp only [Function.comp, (hgc o1 h1).2.2, (hgc o2 h2).2.2] at hee
      have m1 := hVm o1 h1
      have m2 := hVm o2 h2
      have q1 := (hvis _ (mem_facs.2 ⟨o1, m1.1, rfl⟩) m1.2).1
      have q2 := (hvis _ (mem_facs.2 ⟨o2, m2.1, rfl⟩) m2.2).1
      have := congrArg (fun T : Finset (Fin n → K) => T.erase p) hee
      simp only [Finset.erase_insert q1, Finset.erase_insert q2] at this
      exact List.inj_on_of_nodup_map hVn h1 h2 this
    · rintro T hT T' hT' rfl
      obtain ⟨o1, h1, e1⟩ := List.mem_map.1 hT
      obtain ⟨s, hs, e2⟩ := List.mem_map.1 hT'
      simp only [Function.comp, (hgc o1 h1).2.2] at e1
      have m1 := hVm o1 h1
      have := hi.hull.nonneg _ (mem_facs.2 ⟨o1, m1.1, rfl⟩) T (mem_simps.2 ⟨s, hs, e2⟩) p (by rw [← e1]; exact Finset.mem_insert_self _ _)
      exact absurd this (not_le.2 m1.2)
  · intro h0
    have hVe : V = [] := by
      rw [List.eq_nil_iff_forall_not_mem]
      intro o' ho'
      obtain ⟨h1, h2⟩ := hVm o' ho'
      rw [(hi.fits o' h1).1 h0] at h2
      exact absurd h2 (not_lt.2 one_pos.le)
    simp only [c', hVe, List.map_nil, List.nil_append]
    exact hi.single h0
  · intro o' ho'
    rcases List.mem_append.1 ho' with ho' | ho'
    · obtain ⟨e, he, rfl⟩ := List.mem_map.1 ho'
      have he := hperm.mem_iff.1 he
      rw [(hg e he).2.2.1]
      obtain ⟨e', he', h1, h2, -⟩ := hl2 e he
      obtain rfl := hinj e' he' e he h1
      exact h2
    · obtain ⟨h1, h2⟩ := hHm o' ho'
      rw [hl1 _ (mem_facs.2 ⟨o', h1, rfl⟩) h2]
      exact hi.fits o' h1
  · intro T hT x hx
    rw [hsimps, Finset.mem_union, Finset.mem_image] at hT
    rcases hT with hT | ⟨F, hF, rfl⟩
    · exact Set.mem_insert_of_mem _ (hi.verts T hT x hx)
    · rcases Finset.mem_insert.1 hx with rfl | hx
      · exact Set.mem_insert _ _
      · obtain ⟨T, hT, i, hiT, he⟩ := hi.hull.facet (Finset.mem_filter.1 hF).1
        exact Set.mem_insert_of_mem _ (hi.verts T hT x (Finset.mem_of_mem_erase (he.symm ▸ hx)))
  · intro x hx
    rcases hx with rfl | hx
    · by_cases hvisible : ∃ F ∈ c.facs v n, l F p < 0
      · obtain ⟨F, hF, hv⟩ := hvisible
        apply subset_convexHull
        refine ⟨p, ⟨insert p F, ?_, Finset.mem_insert_self _ _⟩, rfl⟩
        rw [hsimps]
        exact Finset.mem_union_right _ (Finset.mem_image_of_mem _ (Finset.mem_filter.2 ⟨hF, hv⟩))
      · push Not at hvisible
        have h1 := (hi.hull.region_conv p).1 (hi.hull.complete hvisible)
        rw [← AffineMap.image_convexHull]
        exact ⟨p, convexHull_mono hmono h1, rfl⟩
    · exact convexHull_mono (Set.image_mono hmono) (hi.conv hx)

end

end Verif.Geometry
