import Verif.Proofs.HullInv

/-! # The checks pass -/

namespace Verif.Geometry

open Classical Verif.Rings

noncomputable local instance (priority := 5000) decPt3 (K : Type) (d : Nat) : DecidableEq (Fin d → K) := fun a b => Classical.propDecidable (a = b)

section
variable {α K : Type} [Field K] [LinearOrder K] [IsStrictOrderedRing K] {S : OrdOps α} {v : α → K} {D n : Nat}
  {c : Hull α} {P : Set (Fin D → K)} {f : (Fin n → K) →ᵃ[K] (Fin D → K)} {l : Finset (Fin n → K) → (Fin n → K) →ᵃ[K] K}

omit [IsStrictOrderedRing K] in
theorem mem_simps {T : Finset (Fin n → K)} : T ∈ c.simps v n ↔ ∃ s ∈ c.interior, s.verts v n = T := by
  unfold Hull.simps; rw [List.mem_toFinset, List.mem_map]

omit [IsStrictOrderedRing K] in
theorem mem_facs {F : Finset (Fin n → K)} : F ∈ c.facs v n ↔ ∃ o ∈ c.facets, o.simplex.verts v n = F := by
  unfold Hull.facs; rw [List.mem_toFinset, List.mem_map]

namespace HullInv
variable (hi : HullInv S v D n c P f l)
include hi

theorem dim : c.subspace.embedded.dim = n + 1 := by rw [hi.sub.embedded, hi.len]

theorem simplex_len {s : Simplex α} (hs : s ∈ c.interior) : s.points.length = n + 1 := by
  have h1 := (hi.hull.full _ (mem_simps.2 ⟨s, hs, rfl⟩)).card
  rw [Module.finrank_fin_fun] at h1
  rw [← h1]
  exact (hi.interior s hs).points.verts_card.symm

theorem facets_ne : c.facets ≠ [] := by
  obtain ⟨F, hF⟩ := hi.hull.facets_nonempty
  obtain ⟨o, ho, -⟩ := mem_facs.1 hF
  exact List.ne_nil_of_mem ho

variable (h : S.Models v)
include h

theorem checkLow : S.checkLow c = some () := by
  unfold OrdOps.checkLow
  rw [hi.dim]
  cases n with
  | succ n => rfl
  | zero =>
    obtain ⟨s, hs⟩ := List.length_eq_one_iff.1 (hi.single rfl)
    have hsv := hi.interior s (by rw [hs]; simp)
    have hsl := hi.simplex_len (s := s) (by rw [hs]; simp)
    have hlen : c.facets.length = 1 := by
      have hne := hi.facets_ne
      have hv : ∀ o ∈ c.facets, o.simplex.verts v 0 = ∅ := by
        intro o ho
        have := (hi.facets o ho).length
        unfold Simplex.verts
        rw [List.length_eq_zero_iff.1 this]; rfl
      match hc : c.facets with
      | [] => exact absurd hc hne
      | [a] => rfl
      | a :: b :: r =>
        have h1 := hi.nodup
        rw [hc] at h1 hv
        simp only [List.map_cons, List.nodup_cons, List.mem_cons, not_or] at h1
        exact absurd ((hv a (by simp)).trans (hv b (by simp)).symm) h1.1.1
    obtain ⟨p, p1, p2, p3⟩ := Vec.construct_some (sp := c.subspace.embedded) (d := 0) v (f := fun _ => none) (x := 0) hi.dim (fun i => i.elim0)
    have hind : Independent v 0 c.subspace.embedded [p] := by
      refine ⟨by simpa using p2, ?_⟩
      haveI : Subsingleton (Fin [p].length) := inferInstanceAs (Subsingleton (Fin 1))
      exact affineIndependent_of_subsingleton K _
    obtain ⟨t, t1, t2, t3⟩ := h.simplexUnwrap hi.dim hind
    have heq : S.simplexEq s t = some true := by
      rw [h.simplexEq_verts hi.dim hsv t2]
      congr 1
      rw [decide_eq_true_iff]
      have c1 : (s.verts v 0).card = 1 := by rw [← show s.points.length = 1 from hsl]; exact hsv.points.verts_card
      have c2 : (t.verts v 0).card = 1 := by
        have := t2.points.verts_card
        rw [t3.length_eq] at this
        exact this
      obtain ⟨a, ha⟩ := Finset.card_eq_one.1 c1
      obtain ⟨b, hb⟩ := Finset.card_eq_one.1 c2
      rw [ha, hb, Subsingleton.elim a b]
    simp only [hlen, p1, t1, hs, OrdOps.simplicesEq, heq, assertThat, beq_self_eq_true, if_true, Option.bind_eq_bind, Option.bind_some, zero_add]

theorem ridgeCounts : ∃ r, S.ridgeCounts c = some r ∧ ∀ e ∈ r, e.2 = 2 := by
  obtain ⟨rs, r1, r2, r3⟩ := mapM_fin (l := c.facets) (f := fun o => S.facets o.simplex) (P := fun i r =>
      (∀ t ∈ r, t.Valid v n c.subspace.embedded) ∧ ∀ (hi : i < c.facets.length) (R : Finset (Fin n → K)), (r.map fun t => t.verts v n).count R =
        if IsFace R (c.facets[i].simplex.verts v n) then 1 else 0) (by
    intro i hl
    obtain ⟨r, h1, h2, h3⟩ := h.facets_count hi.dim (hi.facets _ (List.getElem_mem hl)).simplex
    exact ⟨r, h1, h2, fun _ => h3⟩)
  have hrs : ∀ t ∈ rs.flatten, t.Valid v n c.subspace.embedded := by
    intro t ht
    obtain ⟨r, hr, ht⟩ := List.mem_flatten.1 ht
    obtain ⟨i, hl, rfl⟩ := List.getElem_of_mem hr
    exact (r3 i hl).1 t ht
  obtain ⟨m, m1, m2⟩ := hashCount_set (eq := S.simplexEq) (P := fun t => t.Valid v n c.subspace.embedded) (key := fun t => t.verts v n)
    (fun x y hx hy => h.simplexEq_verts hi.dim hx hy) hrs
  refine ⟨m, ?_, ?_⟩
  · unfold OrdOps.ridgeCounts
    simp only [r1, Option.bind_eq_bind, Option.bind_some, m1]
  · intro e he
    obtain ⟨e1, e2⟩ := m2 e he
    have hcount : ∀ R, (rs.flatten.map fun t => t.verts v n).count R = ((c.facs v n).filter (IsFace R)).card := by
      intro R
      have hfl : rs.flatten.map (fun t => t.verts v n) = (List.finRange c.facets.length).flatMap fun i =>
          (rs[i]'(by rw [r2]; exact i.2)).map fun t => t.verts v n := by
        rw [List.map_flatten, List.flatMap_def]
        congr 1
        apply List.ext_getElem
        · simp [r2]
        · intro i h1 h2; simp
      rw [hfl, count_ridges (κ := fun i : Fin c.facets.length => c.facets[i].simplex.verts v n)]
      · unfold Hull.facs
        congr 3
        apply List.ext_getElem
        · simp
        · intro i h1 h2; simp
      · have : (List.finRange c.facets.length).map (fun i => c.facets[i].simplex.verts v n) = c.facets.map fun o => o.simplex.verts v n := by
          apply List.ext_getElem
          · simp
          · intro i h1 h2; simp
        rw [this]; exact hi.nodup
      · intro i _
        exact (r3 i (by rw [r2]; exact i.2)).2 i.2 R
    rw [e1, hcount]
    have hpos : 0 < ((c.facs v n).filter (IsFace (e.1.verts v n))).card := by
      rw [← hcount]; exact List.count_pos_iff.2 e2
    obtain ⟨F, hF⟩ := Finset.card_pos.1 hpos
    rw [Finset.mem_filter] at hF
    exact hi.hull.ridge_two hF.1 hF.2

theorem checkSides : S.checkSides c = some () := by
  unfold OrdOps.checkSides
  have hpts : ∀ p ∈ (c.facets.flatMap fun f => f.simplex.points) ++ c.interior.flatMap fun s => s.points,
      p.In c.subspace.embedded ∧ ∃ T ∈ c.simps v n, p.val v n ∈ T := by
    intro p hp
    rcases List.mem_append.1 hp with hp | hp
    · obtain ⟨o, ho, hp⟩ := List.mem_flatMap.1 hp
      refine ⟨(hi.facets o ho).simplex.points.mem p hp, ?_⟩
      obtain ⟨T, hT, i, hiT, he⟩ := hi.hull.facet (mem_facs.2 ⟨o, ho, rfl⟩)
      refine ⟨T, hT, ?_⟩
      have : p.val v n ∈ o.simplex.verts v n := mem_vertsOf.2 ⟨p, hp, rfl⟩
      rw [← he] at this
      exact Finset.mem_of_mem_erase this
    · obtain ⟨s, hs, hp⟩ := List.mem_flatMap.1 hp
      exact ⟨(hi.interior s hs).points.mem p hp, _, mem_simps.2 ⟨s, hs, rfl⟩, mem_vertsOf.2 ⟨p, hp, rfl⟩⟩
  obtain ⟨sides, s1, s2, s3⟩ := mapM_fin (l := c.facets)
    (f := fun f => ((c.facets.flatMap fun f => f.simplex.points) ++ c.interior.flatMap fun s => s.points).mapM (S.classify f))
    (P := fun _ r => ∀ x ∈ r, x ≠ Side.negative) (by
      intro i hl
      obtain ⟨r, r1, r2, r3⟩ := mapM_fin (l := (c.facets.flatMap fun f => f.simplex.points) ++ c.interior.flatMap fun s => s.points)
        (f := S.classify c.facets[i]) (P := fun _ x => x ≠ Side.negative) (by
          intro j hj
          have ho := List.getElem_mem hl
          obtain ⟨hp, T, hT, hpT⟩ := hpts _ (List.getElem_mem hj)
          obtain ⟨side, e1, e2, -⟩ := (hi.fits _ ho).classify h (hi.facets _ ho) hp
          refine ⟨side, e1, fun hneg => ?_⟩
          exact absurd (hi.hull.nonneg _ (mem_facs.2 ⟨_, ho, rfl⟩) T hT _ hpT) (not_le.2 (e2.1 hneg)))
      refine ⟨r, r1, fun x hx => ?_⟩
      obtain ⟨j, hj, rfl⟩ := List.getElem_of_mem hx
      exact r3 j hj)
  simp only [s1, Option.bind_eq_bind, Option.bind_some]
  have : (sides.all fun l => l.all fun x => decide (x ≠ Side.negative)) = true := by
    rw [List.all_eq_true]
    intro r hr
    rw [List.all_eq_true]
    intro x hx
    obtain ⟨i, hl, rfl⟩ := List.getElem_of_mem hr
    exact decide_eq_true (s3 i hl x hx)
  rw [this]; rfl

theorem check : S.hullCheck c = some () := by
  unfold OrdOps.hullCheck
  obtain ⟨r, r1, r2⟩ := hi.ridgeCounts h
  have a1 : (c.facets.all fun f => decide (f.simplex.space = c.subspace.embedded)) = true := by
    rw [List.all_eq_true]
    intro o ho
    exact decide_eq_true (hi.facets o ho).simplex.space
  have a2 : (c.interior.all fun s => decide (s.space = c.subspace.embedded) && s.n == c.subspace.embedded.dim) = true := by
    rw [List.all_eq_true]
    intro s hs
    rw [Bool.and_eq_true]
    refine ⟨decide_eq_true (hi.interior s hs).space, ?_⟩
    rw [beq_iff_eq, hi.dim]
    exact hi.simplex_len hs
  have a3 : (c.subspace.embedded.linDim.isNone || !c.facets.isEmpty) = true := by
    have := hi.facets_ne
    simp [this]
  have a4 : (r.all fun e => e.2 == 2) = true := by
    rw [List.all_eq_true]
    intro e he
    rw [beq_iff_eq]; exact r2 e he
  simp only [hi.amb, decide_true, a1, a2, a3, a4, hi.checkLow h, r1, hi.checkSides h, assertThat, if_true, Option.bind_eq_bind, Option.bind_some]

end HullInv

end

end Verif.Geometry
