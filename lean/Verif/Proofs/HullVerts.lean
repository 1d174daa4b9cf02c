import Verif.Proofs.HullHash
import Verif.Proofs.HullBoundary
import Verif.Proofs.HullRaise
import Verif.Proofs.HullProper
import Verif.Proofs.GeometryHyper

/-! # The vertex sets of simplices, and their ridges -/

namespace Verif.Geometry

open Classical Verif.Rings

/-- all decisions about finite sets of points are classical -/
noncomputable local instance (priority := 5000) decPt (K : Type) (d : Nat) : DecidableEq (Fin d → K) := fun a b => Classical.propDecidable (a = b)

section
variable {α K : Type} [Field K] {v : α → K} {d : Nat} {sp : Space}

/-- the vertices of a list of vectors -/
noncomputable def vertsOf (v : α → K) (d : Nat) (l : List (Vec α)) : Finset (Fin d → K) := (l.map (Vec.val v d)).toFinset

/-- the vertices of a simplex -/
noncomputable def Simplex.verts (v : α → K) (d : Nat) (s : Simplex α) : Finset (Fin d → K) := vertsOf v d s.points

theorem mem_vertsOf {l : List (Vec α)} {x : Fin d → K} : x ∈ vertsOf v d l ↔ ∃ p ∈ l, p.val v d = x := by
  unfold vertsOf; rw [List.mem_toFinset, List.mem_map]

theorem coe_vertsOf (l : List (Vec α)) : (vertsOf v d l : Set (Fin d → K)) = pointSet v d l := by
  ext x; rw [Finset.mem_coe, mem_vertsOf]; rfl

theorem vertsOf_perm {l l' : List (Vec α)} (hp : l'.Perm l) : vertsOf v d l' = vertsOf v d l := by
  ext x; simp only [mem_vertsOf, hp.mem_iff]

theorem vertsOf_append (l : List (Vec α)) (p : Vec α) : vertsOf v d (l ++ [p]) = insert (p.val v d) (vertsOf v d l) := by
  ext x
  simp only [mem_vertsOf, List.mem_append, List.mem_singleton, Finset.mem_insert]
  constructor
  · rintro ⟨q, hq | rfl, rfl⟩
    · exact .inr ⟨q, hq, rfl⟩
    · exact .inl rfl
  · rintro (rfl | ⟨q, hq, rfl⟩)
    · exact ⟨p, .inr rfl, rfl⟩
    · exact ⟨q, .inl hq, rfl⟩

theorem Independent.verts_card {l : List (Vec α)} (h : Independent v d sp l) : (vertsOf v d l).card = l.length := by
  unfold vertsOf
  rw [List.toFinset_card_of_nodup ((indep_iff l).1 h.indep).1, List.length_map]

theorem Independent.verts_indep {l : List (Vec α)} (h : Independent v d sp l) : AffineIndependent K (fun x : vertsOf v d l => (x : Fin d → K)) := by
  have h1 := ((indep_iff l).1 h.indep).2
  rw [← coe_vertsOf] at h1
  exact h1

theorem independent_of_verts {l : List (Vec α)} (hm : ∀ p ∈ l, p.In sp) (hi : AffineIndependent K (fun x : vertsOf v d l => (x : Fin d → K)))
    (hc : (vertsOf v d l).card = l.length) : Independent v d sp l := by
  refine ⟨hm, (indep_iff l).2 ⟨?_, ?_⟩⟩
  · have := (Multiset.toFinset_card_eq_card_iff_nodup (m := ((l.map (Vec.val v d) : List (Fin d → K)) : Multiset (Fin d → K)))).1 (by
      rw [Multiset.coe_card, List.length_map]; exact hc)
    exact Multiset.coe_nodup.1 this
  · rw [← coe_vertsOf]; exact hi

theorem vertsOf_eraseIdx {l : List (Vec α)} (h : Independent v d sp l) {k : Nat} (hk : k < l.length) :
    vertsOf v d (l.eraseIdx k) = (vertsOf v d l).erase (l[k].val v d) := by
  ext x
  rw [Finset.mem_erase, mem_vertsOf, mem_vertsOf]
  constructor
  · rintro ⟨p, hp, rfl⟩
    have hpl := (List.eraseIdx_sublist l k).subset hp
    refine ⟨fun e => ?_, p, hpl, rfl⟩
    have e2 := h.val_inj hpl (List.getElem_mem hk) e
    rw [List.mem_eraseIdx_iff_getElem] at hp
    obtain ⟨i, hi, hne, rfl⟩ := hp
    exact hne ((h.nodup.getElem_inj_iff).1 e2)
  · rintro ⟨hne, p, hp, rfl⟩
    refine ⟨p, ?_, rfl⟩
    rw [List.mem_eraseIdx_iff_getElem]
    obtain ⟨i, hi, rfl⟩ := List.getElem_of_mem hp
    exact ⟨i, hi, fun e => hne (by subst e; rfl), rfl⟩

theorem count_of_nodup {δ : Type} [DecidableEq δ] {L : List δ} (hn : L.Nodup) {P : δ → Prop} (h : ∀ R, R ∈ L ↔ P R) (R : δ) : L.count R = if P R then 1 else 0 := by
  by_cases hR : R ∈ L
  · rw [List.count_eq_one_of_mem hn hR, if_pos ((h R).1 hR)]
  · rw [List.count_eq_zero_of_not_mem hR, if_neg (fun hh => hR ((h R).2 hh))]

/-- counting the ridges of a list of facets -/
theorem count_ridges {β : Type} {d : Nat} {fs : List β} {κ : β → Finset (Fin d → K)} {g : β → List (Finset (Fin d → K))} (hn : (fs.map κ).Nodup) (R : Finset (Fin d → K))
    (hg : ∀ f ∈ fs, (g f).count R = if IsFace R (κ f) then 1 else 0) :
    (fs.flatMap g).count R = ((fs.map κ).toFinset.filter (IsFace R)).card := by
  induction fs with
  | nil => simp
  | cons f fs ih =>
    rw [List.map_cons, List.nodup_cons] at hn
    rw [List.flatMap_cons, List.count_append, hg f (by simp), ih hn.2 (fun f hf => hg f (List.mem_cons_of_mem _ hf)), List.map_cons, List.toFinset_cons,
      Finset.filter_insert]
    have hnot : κ f ∉ (fs.map κ).toFinset.filter (IsFace R) := fun hh => hn.1 (List.mem_toFinset.1 (Finset.mem_filter.1 hh).1)
    split_ifs with hf
    · rw [Finset.card_insert_of_notMem hnot]; omega
    · omega

end

section
variable {α K : Type} [Field K] [LinearOrder K] [IsStrictOrderedRing K] {S : OrdOps α} {v : α → K} {d : Nat} {sp : Space} (h : S.Models v)

omit [IsStrictOrderedRing K] in
theorem Simplex.Valid.verts_inj {l m : List (Vec α)} (hl : l.Pairwise fun p q => toLex (p.val v d) < toLex (q.val v d))
    (hm : m.Pairwise fun p q => toLex (p.val v d) < toLex (q.val v d)) (e : vertsOf v d l = vertsOf v d m) : l.map (Vec.val v d) = m.map (Vec.val v d) := by
  have n1 : ((l.map fun p => toLex (p.val v d))).Pairwise (· < ·) := List.pairwise_map.2 hl
  have n2 : ((m.map fun p => toLex (p.val v d))).Pairwise (· < ·) := List.pairwise_map.2 hm
  have hp : (l.map fun p => toLex (p.val v d)).Perm (m.map fun p => toLex (p.val v d)) := by
    rw [List.perm_ext_iff_of_nodup (n1.imp fun h => h.ne) (n2.imp fun h => h.ne)]
    intro x
    have := congrArg (fun A : Finset (Fin d → K) => ofLex x ∈ A) e
    simp only [mem_vertsOf, eq_iff_iff] at this
    simp only [List.mem_map]
    exact this
  have := hp.eq_of_pairwise (fun a b _ _ h1 h2 => absurd h1 (lt_asymm h2)) n1 n2
  have h3 := congrArg (List.map ofLex) this
  simpa [List.map_map, Function.comp_def] using h3

include h

theorem OrdOps.Models.simplexEq_verts (hd : sp.dim = d + 1) {s t : Simplex α} (hs : s.Valid v d sp) (ht : t.Valid v d sp) :
    S.simplexEq s t = some (decide (s.verts v d = t.verts v d)) := by
  rw [h.simplexEq hd hs ht]
  congr 1
  have : (pointSet v d s.points = pointSet v d t.points) ↔ (s.verts v d = t.verts v d) := by
    rw [← coe_vertsOf, ← coe_vertsOf, Finset.coe_inj]; rfl
  simp only [this]

theorem OrdOps.Models.ridgeEntries (hd : sp.dim = d + 1) {s : Simplex α} (hs : s.Valid v d sp) :
    ∃ es, S.ridgeEntries s = some es ∧
      (∀ e ∈ es, e.1.Valid v d sp ∧ e.2 ∈ s.points ∧ e.1.verts v d = (s.verts v d).erase (e.2.val v d)) ∧
      ∀ R, (es.map fun e => e.1.verts v d).count R = if IsFace R (s.verts v d) then 1 else 0 := by
  have h1 : S.ridgeEntries s = some ((List.finRange s.points.length).map fun k : Fin s.points.length => ((⟨sp, s.points.eraseIdx k⟩ : Simplex α), s.points[k])) := by
    unfold OrdOps.ridgeEntries Simplex.n
    have : List.range s.points.length = (List.finRange s.points.length).map Fin.val := by simp
    rw [this, List.mapM_map]
    apply mapM_eq_map
    intro k _
    have hk : (k : Nat) < s.points.length := k.2
    simp only [Function.comp, h.facet hd hs hk, Option.bind_eq_bind, Option.bind_some, List.getElem?_eq_getElem hk]
    rfl
  have hv : ∀ k : Fin s.points.length, Simplex.verts v d ⟨sp, s.points.eraseIdx k⟩ = (s.verts v d).erase (s.points[k].val v d) :=
    fun k => vertsOf_eraseIdx hs.points k.2
  have hmem : ∀ k : Fin s.points.length, s.points[k].val v d ∈ s.verts v d := fun k => mem_vertsOf.2 ⟨_, List.getElem_mem _, rfl⟩
  refine ⟨_, h1, ?_, ?_⟩
  · intro e he
    obtain ⟨k, -, rfl⟩ := List.mem_map.1 he
    exact ⟨hs.sublist (List.eraseIdx_sublist _ _), List.getElem_mem _, hv k⟩
  · apply count_of_nodup
    · rw [List.map_map]
      refine (List.nodup_finRange _).map_on ?_
      intro i _ j _ e
      simp only [Function.comp] at e
      rw [hv, hv] at e
      have e2 : s.points[i].val v d = s.points[j].val v d := by
        by_contra hne
        have : s.points[i].val v d ∈ (s.verts v d).erase (s.points[j].val v d) := Finset.mem_erase.2 ⟨hne, hmem i⟩
        rw [← e] at this
        exact absurd rfl (Finset.mem_erase.1 this).1
      have e3 := hs.points.val_inj (List.getElem_mem i.2) (List.getElem_mem j.2) e2
      exact Fin.ext ((hs.points.nodup.getElem_inj_iff).1 e3)
    · intro R
      simp only [List.map_map, List.mem_map, Function.comp, hv]
      constructor
      · rintro ⟨k, -, rfl⟩
        exact ⟨_, hmem k, rfl⟩
      · rintro ⟨i, hi, rfl⟩
        obtain ⟨p, hp, rfl⟩ := mem_vertsOf.1 hi
        obtain ⟨k, hk, rfl⟩ := List.getElem_of_mem hp
        exact ⟨⟨k, hk⟩, List.mem_finRange _, rfl⟩

theorem OrdOps.Models.facets_count (hd : sp.dim = d + 1) {s : Simplex α} (hs : s.Valid v d sp) :
    ∃ l, S.facets s = some l ∧ (∀ t ∈ l, t.Valid v d sp) ∧ ∀ R, (l.map fun t => t.verts v d).count R = if IsFace R (s.verts v d) then 1 else 0 := by
  by_cases h0 : s.points.length = 0
  · refine ⟨[], ?_, by simp, ?_⟩
    · unfold OrdOps.facets OrdOps.skeleton
      rw [if_pos (by omega)]
    · intro R
      rw [if_neg]
      · rfl
      · rintro ⟨i, hi, -⟩
        obtain ⟨p, hp, -⟩ := mem_vertsOf.1 hi
        rw [List.length_eq_zero_iff.1 h0] at hp
        simp at hp
  · obtain ⟨l, l1, l2, l3⟩ := h.skeleton hd hs (s.points.length - 1)
    refine ⟨l, ?_, l2, ?_⟩
    · unfold OrdOps.facets
      rw [← l1]
      congr 1
      omega
    · apply count_of_nodup
      · refine List.Nodup.map_on ?_ (List.Nodup.of_map Simplex.points (l3.nodup_iff.2 (List.nodup_sublistsLen _ hs.points.nodup)))
        intro a ha b hb e
        have h1 := l2 a ha
        have h2 := l2 b hb
        have e2 := Simplex.Valid.verts_inj h1.sorted h2.sorted e
        have pa : a.points.Sublist s.points := (List.mem_sublistsLen.1 (l3.mem_iff.1 (List.mem_map_of_mem ha))).1
        have pb : b.points.Sublist s.points := (List.mem_sublistsLen.1 (l3.mem_iff.1 (List.mem_map_of_mem hb))).1
        have e3 : a.points = b.points := by
          apply List.ext_getElem
          · simpa using congrArg List.length e2
          · intro i hi hj
            apply hs.points.val_inj (pa.subset (List.getElem_mem _)) (pb.subset (List.getElem_mem _))
            have := List.getElem_of_eq e2 (i := i) (by simpa using hi)
            simpa using this
        cases a; cases b
        simp only [Simplex.mk.injEq]
        exact ⟨h1.space.trans h2.space.symm, e3⟩
      · intro R
        rw [List.mem_map]
        constructor
        · rintro ⟨t, ht, rfl⟩
          obtain ⟨pt, hl⟩ := List.mem_sublistsLen.1 (l3.mem_iff.1 (List.mem_map_of_mem ht))
          have hsub : t.verts v d ⊆ s.verts v d := by
            intro x hx
            obtain ⟨p, hp, rfl⟩ := mem_vertsOf.1 hx
            exact mem_vertsOf.2 ⟨p, pt.subset hp, rfl⟩
          have c1 : (t.verts v d).card = s.points.length - 1 := by rw [← hl]; exact (l2 t ht).points.verts_card
          have c2 : (s.verts v d).card = s.points.length := hs.points.verts_card
          have c3 : (s.verts v d \ t.verts v d).card = 1 := by rw [Finset.card_sdiff_of_subset hsub, c1, c2]; omega
          obtain ⟨i, hi⟩ := Finset.card_eq_one.1 c3
          have hi' : i ∈ s.verts v d \ t.verts v d := by rw [hi]; simp
          rw [Finset.mem_sdiff] at hi'
          refine ⟨i, hi'.1, ?_⟩
          apply Eq.symm
          apply Finset.eq_of_subset_of_card_le
          · intro x hx
            exact Finset.mem_erase.2 ⟨fun e => hi'.2 (e ▸ hx), hsub hx⟩
          · rw [Finset.card_erase_of_mem hi'.1, c1, c2]
        · rintro ⟨i, hi, rfl⟩
          obtain ⟨p, hp, rfl⟩ := mem_vertsOf.1 hi
          obtain ⟨k, hk, rfl⟩ := List.getElem_of_mem hp
          have hsub : (s.points.eraseIdx k) ∈ s.points.sublistsLen (s.points.length - 1) :=
            List.mem_sublistsLen.2 ⟨List.eraseIdx_sublist _ _, by rw [List.length_eraseIdx_of_lt hk]⟩
          obtain ⟨t, ht, et⟩ := List.mem_map.1 (l3.mem_iff.2 hsub)
          refine ⟨t, ht, ?_⟩
          unfold Simplex.verts
          rw [et, vertsOf_eraseIdx hs.points hk]

end

end Verif.Geometry
