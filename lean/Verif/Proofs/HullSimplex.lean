import Verif.Proofs.HullMeet

/-! # The hull of a simplex -/

namespace Verif.Geometry

open Classical Verif.Rings

noncomputable local instance (priority := 5000) decPt12 (K : Type) (d : Nat) : DecidableEq (Fin d → K) := fun a b => Classical.propDecidable (a = b)

section
variable {α K : Type} [Field K] [LinearOrder K] [IsStrictOrderedRing K]
variable {S : OrdOps α} {v : α → K} {D n : Nat} {sp : Space} {c : Hull α} {P : Set (Fin D → K)}

theorem OrdOps.Models.hullFromSimplex (h : S.Models v) (o : Oracle α) (hd : sp.dim = D + 1) {s : Simplex α} (hs : s.Valid v D sp) :
    ∃ c, S.hullFromSimplex o s = some c ∧ HullOf S v D c (pointSet v D s.points) ∧ c.ambient = sp := by
  obtain ⟨e, pts, e1, e2, e3, -, e5, e6, e7, e8⟩ := (h.spanNew (o.ident []) hd hs.points.mem).1 hs.points.indep
  cases hn : s.points.length with
  | zero =>
    have hp0 : pts = [] := List.length_eq_zero_iff.1 (by omega)
    have hs0 : s.points = [] := List.length_eq_zero_iff.1 hn
    refine ⟨⟨s.space, e, [], [⟨e.embedded, []⟩]⟩, ?_, .inl ⟨by rw [hs0, pointSet_nil], ⟨e2, by rw [e3, hs.space], by rw [e5, hs0], rfl, rfl⟩⟩, hs.space⟩
    subst hp0
    have hdim : e.embedded.dim = 0 := by rw [e2.embedded, e5, hn]
    have h1 : S.simplexUnwrap e.embedded [] = some ⟨e.embedded, []⟩ := rfl
    have h2 : S.orientedFacets ⟨e.embedded, []⟩ = some [] := by
      unfold OrdOps.orientedFacets Simplex.n
      simp [hdim, assertThat]
    unfold OrdOps.hullFromSimplex
    simp only [hs.space, e1, Except.toOption, Option.bind_eq_bind, Option.bind_some, h1, h2]
  | succ n =>
    rw [hn, Nat.add_sub_cancel] at e8
    have hlen : e.points.length = n + 1 := by rw [e5, hn]
    obtain ⟨f, hf⟩ := e2.map h hlen
    have hfp : ∀ (i : Nat) (hi : i < pts.length), f (pts[i].val v n) = (s.points[i]'(by omega)).val v D := by
      intro i hi
      rw [e8 i hi]
      cases i with
      | zero =>
        have : (fun j : Fin n => if 0 = (j : Nat) + 1 then (1 : K) else 0) = 0 := by
          funext j; simp
        rw [this, hf.zero (by omega)]
        simp only [e5]
      | succ i =>
        have hin : i < n := by omega
        have : (fun j : Fin n => if i + 1 = (j : Nat) + 1 then (1 : K) else 0) = Pi.single ⟨i, hin⟩ 1 := by
          funext j
          rw [Pi.single_apply]
          congr 1
          rw [Fin.ext_iff]
          apply propext
          constructor <;> intro hh <;> simp at hh ⊢ <;> omega
        rw [this, hf.unit ⟨i, hin⟩ (by simp only [hlen]; omega)]
        simp only [e5]
    have hedim : e.embedded.dim = n + 1 := by rw [e2.embedded, hlen]
    have hind : Independent v n e.embedded pts := by
      refine ⟨e7, AffineIndependent.of_comp f ?_⟩
      have : f ∘ pointsOf v n pts = pointsOf v D s.points ∘ Fin.cast (e6) := by
        funext i
        exact hfp i i.2
      rw [this]
      exact hs.points.indep.comp_embedding (Fin.castOrderIso e6).toEmbedding
    obtain ⟨t, t1, t2, t3⟩ := h.simplexUnwrap hedim hind
    have htl : t.points.length = n + 1 := by rw [t3.length_eq, e6, hn]
    obtain ⟨os, o1, o2, o3⟩ := h.orientedFacets hedim t2 htl
    have hinj := t2.points.indep.injective
    set T := t.verts v n with hT
    have hTc : T.card = n + 1 := by
      rw [hT]
      exact (t2.points.verts_card).trans htl
    have hverts : ∀ (k : Nat) (hk : k < os.length) (hk' : k < t.points.length), os[k].simplex.verts v n = T.erase (t.points[k].val v n) := by
      intro k hk hk'
      have : os[k].simplex.verts v n = vertsOf v n (t.points.eraseIdx k) := by
        unfold Simplex.verts; rw [(o3 k hk hk').2.1]
      rw [this, vertsOf_eraseIdx t2.points hk']
      rfl
    have htk : ∀ (k : Nat) (hk' : k < t.points.length), t.points[k].val v n ∈ T := fun k hk' => mem_vertsOf.2 ⟨_, List.getElem_mem hk', rfl⟩
    have hnodup : (os.map fun o => o.simplex.verts v n).Nodup := by
      rw [List.nodup_iff_injective_getElem]
      rintro ⟨i, hi⟩ ⟨j, hj⟩ hij
      simp only [List.length_map] at hi hj
      simp only [List.getElem_map] at hij
      rw [hverts i hi (by omega), hverts j hj (by omega)] at hij
      by_contra hne
      have h1 : t.points[i].val v n ∈ T.erase (t.points[j].val v n) := by
        refine Finset.mem_erase.2 ⟨fun hh => hne ?_, htk i (by omega)⟩
        have := @hinj ⟨i, by omega⟩ ⟨j, by omega⟩ hh
        simpa using this
      rw [← hij] at h1
      exact absurd h1 (Finset.notMem_erase _ _)
    have hex : ∀ x : OSimplex α, ∃ A : (Fin n → K) →ᵃ[K] K, x ∈ os → x.Fits S v n e.embedded A ∧ (∀ y ∈ x.simplex.verts v n, A y = 0) ∧ (∃ y, A y ≠ 0) ∧ ∀ y ∈ T, 0 ≤ A y := by
      intro x
      by_cases hx : x ∈ os
      · obtain ⟨k, hk, rfl⟩ := List.mem_iff_getElem.1 hx
        have hk' : k < t.points.length := by omega
        obtain ⟨q1, q2, q3⟩ := o3 k hk hk'
        obtain ⟨A, A1, A2, A3, A4⟩ := q1.fits h hedim
        refine ⟨A, fun _ => ⟨A1, A2, A3, ?_⟩⟩
        intro y hy
        by_cases hyk : y = t.points[k].val v n
        · by_cases h0 : n = 0
          · rw [A1.1 h0 y]; exact one_pos.le
          · obtain ⟨b, hb⟩ := q3 h0
            rw [hyk]; exact (A4 _ _ hb).le
        · exact (A2 y (by rw [hverts k hk hk']; exact Finset.mem_erase.2 ⟨hyk, hy⟩)).ge
      · exact ⟨AffineMap.const K _ 0, fun hh => absurd hh hx⟩
    choose Af hAf using hex
    let l : Finset (Fin n → K) → (Fin n → K) →ᵃ[K] K := fun F => if hF : ∃ x ∈ os, x.simplex.verts v n = F then Af (Classical.choose hF) else AffineMap.const K _ 0
    have hl : ∀ x ∈ os, l (x.simplex.verts v n) = Af x := by
      intro x hx
      have hF : ∃ y ∈ os, y.simplex.verts v n = x.simplex.verts v n := ⟨x, hx, rfl⟩
      have h1 := Classical.choose_spec hF
      have h2 : Classical.choose hF = x := List.inj_on_of_nodup_map hnodup h1.1 hx h1.2
      show (if hF : ∃ y ∈ os, y.simplex.verts v n = x.simplex.verts v n then Af (Classical.choose hF) else AffineMap.const K _ 0) = Af x
      rw [dif_pos hF, h2]
    have hfp' : (f : (Fin n → K) → (Fin D → K)) '' (T : Set (Fin n → K)) = pointSet v D s.points := by
      have : (T : Set (Fin n → K)) = pointSet v n pts := by
        rw [hT]; unfold Simplex.verts; rw [coe_vertsOf]; exact pointSet_perm' t3
      rw [this]
      ext x
      constructor
      · rintro ⟨_, ⟨p, hp, rfl⟩, rfl⟩
        obtain ⟨i, hi, rfl⟩ := List.mem_iff_getElem.1 hp
        rw [hfp i hi]
        exact ⟨_, List.getElem_mem _, rfl⟩
      · rintro ⟨p, hp, rfl⟩
        obtain ⟨i, hi, rfl⟩ := List.mem_iff_getElem.1 hp
        exact ⟨_, ⟨pts[i]'(by omega), List.getElem_mem _, rfl⟩, hfp i (by omega)⟩
    let c : Hull α := ⟨s.space, e, os, [t]⟩
    have hsimps : c.simps v n = {T} := by
      unfold Hull.simps; simp only [c, List.map_cons, List.map_nil]; rfl
    have hfacs : ∀ F, F ∈ c.facs v n ↔ ∃ x ∈ os, x.simplex.verts v n = F := by
      intro F
      unfold Hull.facs
      rw [List.mem_toFinset, List.mem_map]
    refine ⟨c, ?_, .inr ⟨n, f, l, e2, by rw [e3]; exact hs.space.symm, hlen, hf, ?_, ?_, hnodup, by simp [c], fun _ => rfl, ?_, by rw [hsimps]; exact Proper.single _, ?_, ?_, ?_⟩, hs.space⟩
    · unfold OrdOps.hullFromSimplex
      simp only [hs.space, e1, Except.toOption, Option.bind_eq_bind, Option.bind_some, t1, o1]
      simp only [c, hs.space]
    · intro x hx
      obtain ⟨k, hk, rfl⟩ := List.mem_iff_getElem.1 hx
      have hk2 : k < os.length := hk
      exact (o3 k hk (by omega)).1
    · intro x hx
      rw [List.mem_singleton.1 hx]; exact t2
    · rw [hsimps]
      have hfull : Full K T := ⟨t2.points.verts_indep, by rw [hTc, Module.finrank_fin_fun]⟩
      refine ⟨⟨_, Finset.mem_singleton_self _⟩, ?_, ?_, ?_, ?_, ?_, ?_⟩
      · intro T' hT'
        rw [Finset.mem_singleton.1 hT']
        exact hfull
      · intro F hF x hx
        obtain ⟨y, hy, rfl⟩ := (hfacs F).1 hF
        rw [hl y hy]
        exact (hAf y hy).2.1 x hx
      · intro F hF T' hT' x hx
        rw [Finset.mem_singleton.1 hT'] at hx
        obtain ⟨y, hy, rfl⟩ := (hfacs F).1 hF
        rw [hl y hy]
        exact (hAf y hy).2.2.2 x hx
      · intro F hF
        obtain ⟨y, hy, rfl⟩ := (hfacs F).1 hF
        rw [hl y hy]
        exact (hAf y hy).2.2.1
      · intro R
        have hfil : R ∈ c.facs v n ↔ IsFace R T := by
          rw [hfacs]
          constructor
          · rintro ⟨x, hx, rfl⟩
            obtain ⟨k, hk, rfl⟩ := List.mem_iff_getElem.1 hx
            exact ⟨_, htk k (by omega), (hverts k hk (by omega)).symm⟩
          · rintro ⟨i, hi, rfl⟩
            obtain ⟨p, hp, rfl⟩ := mem_vertsOf.1 hi
            obtain ⟨k, hk, rfl⟩ := List.mem_iff_getElem.1 hp
            exact ⟨os[k]'(by omega), List.getElem_mem _, hverts k (by omega) hk⟩
        rw [hfil]
        by_cases hR : IsFace R T
        · have : ({T} : Finset (Finset (Fin n → K))).filter (IsFace R) = {T} := by
            rw [Finset.filter_singleton, if_pos hR]
          rw [this]; simp [hR]
        · have : ({T} : Finset (Finset (Fin n → K))).filter (IsFace R) = ∅ := by
            rw [Finset.filter_singleton, if_neg hR]
          rw [this]; simp [hR]
      · intro T1 h1 T2 h2 x _ _
        rw [Finset.mem_singleton.1 h1, Finset.mem_singleton.1 h2]
    · intro x hx
      rw [hl x hx]
      exact (hAf x hx).1
    · rw [hsimps]
      intro T' hT' x hx
      rw [Finset.mem_singleton.1 hT'] at hx
      rw [← hfp']
      exact ⟨x, hx, rfl⟩
    · rw [hsimps, ← hfp']
      refine (Set.image_mono ?_).trans (subset_convexHull K _)
      intro x hx
      exact ⟨T, Finset.mem_singleton_self _, hx⟩

end

end Verif.Geometry
