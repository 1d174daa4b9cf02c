import Verif.Proofs.GeometryAff
import Mathlib.Data.List.Sublists

/-! # Simplices -/

namespace Verif.Geometry

open Verif.Rings

section
variable {α K : Type} [Field K] {v : α → K} {d : Nat} {sp : Space}

theorem indep_iff (l : List (Vec α)) : AffineIndependent K (pointsOf v d l) ↔
    (l.map (Vec.val v d)).Nodup ∧ AffineIndependent K (fun x : pointSet v d l => (x : Fin d → K)) := by
  have e : l.map (Vec.val v d) = List.ofFn (pointsOf v d l) := by
    apply List.ext_getElem (by simp)
    intro i h1 h2
    simp [pointsOf]
  rw [e, List.nodup_ofFn]
  constructor
  · intro ha
    refine ⟨ha.injective, ?_⟩
    rw [← range_pointsOf]
    exact ha.range
  · rintro ⟨h1, h2⟩
    rw [← range_pointsOf] at h2
    exact h2.of_set_of_injective h1

theorem pointSet_mono {l l' : List (Vec α)} (hs : ∀ p ∈ l', p ∈ l) : pointSet v d l' ⊆ pointSet v d l := by
  rintro x ⟨p, hp, rfl⟩
  exact ⟨p, hs p hp, rfl⟩

theorem pointSet_perm {l l' : List (Vec α)} (hp : l'.Perm l) : pointSet v d l' = pointSet v d l :=
  Set.Subset.antisymm (pointSet_mono fun _ h => hp.mem_iff.1 h) (pointSet_mono fun _ h => hp.mem_iff.2 h)

theorem Independent.perm {l l' : List (Vec α)} (h : Independent v d sp l) (hp : l'.Perm l) : Independent v d sp l' := by
  refine ⟨fun p hm => h.mem p (hp.mem_iff.1 hm), ?_⟩
  rw [indep_iff]
  have h1 := (indep_iff l).1 h.indep
  refine ⟨((hp.map _).nodup_iff).2 h1.1, ?_⟩
  rw [pointSet_perm hp]
  exact h1.2

theorem Independent.sublist {l l' : List (Vec α)} (h : Independent v d sp l) (hp : l'.Sublist l) : Independent v d sp l' := by
  refine ⟨fun p hm => h.mem p (hp.subset hm), ?_⟩
  rw [indep_iff]
  have h1 := (indep_iff l).1 h.indep
  exact ⟨h1.1.sublist (hp.map _), h1.2.mono (pointSet_mono fun p hm => hp.subset hm)⟩

theorem Independent.nodup {l : List (Vec α)} (h : Independent v d sp l) : l.Nodup := ((indep_iff l).1 h.indep).1.of_map

theorem Independent.val_inj {l : List (Vec α)} (h : Independent v d sp l) {p q : Vec α} (hp : p ∈ l) (hq : q ∈ l)
    (e : p.val v d = q.val v d) : p = q := List.inj_on_of_nodup_map ((indep_iff l).1 h.indep).1 hp hq e

theorem Independent.card_le {l : List (Vec α)} (h : Independent v d sp l) : l.length ≤ d + 1 := by
  have := h.indep.card_le_finrank_succ
  rw [Fintype.card_fin] at this
  refine this.trans ?_
  have := Submodule.finrank_le (vectorSpan K (Set.range (pointsOf v d l)))
  rw [Module.finrank_fin_fun] at this
  omega

end

section
variable {α K : Type} [Field K] [LinearOrder K] {S : OrdOps α} {v : α → K} (h : S.Models v) {d : Nat} {sp : Space}

theorem Simplex.Valid.sublist {s : Simplex α} (hs : s.Valid v d sp) {l : List (Vec α)} (hl : l.Sublist s.points) :
    Simplex.Valid v d sp ⟨sp, l⟩ := ⟨rfl, hs.points.sublist hl, hs.sorted.sublist hl⟩

include h

theorem OrdOps.Models.insertionSort {points : List (Vec α)} (hd : sp.dim = d + 1) (hv : ∀ p ∈ points, p.In sp) :
    ((points.insertionSort S.vecLe).map fun p => toLex (p.val v d)) = (points.map fun p => toLex (p.val v d)).insertionSort (· ≤ ·) :=
  List.map_insertionSort _ _ _ _ fun a ha b hb => h.vecLe hd (hv a ha) (hv b hb)

theorem OrdOps.Models.simplexNew {points : List (Vec α)} (hd : sp.dim = d + 1) (hv : ∀ p ∈ points, p.In sp) :
    (AffineIndependent K (pointsOf v d points) →
      ∃ s, S.simplexNew sp points = some (.ok s) ∧ s.Valid v d sp ∧ s.points.Perm points) ∧
    (¬ AffineIndependent K (pointsOf v d points) → S.simplexNew sp points = some (.error ())) := by
  have hp := List.perm_insertionSort S.vecLe points
  have hv' : ∀ p ∈ points.insertionSort S.vecLe, p.In sp := fun p hm => hv p (hp.mem_iff.1 hm)
  have base : S.simplexNew sp points = (S.affIndep sp (points.insertionSort S.vecLe)).bind fun ok =>
      if ok then some (.ok ⟨sp, points.insertionSort S.vecLe⟩) else some (.error ()) := by
    unfold OrdOps.simplexNew
    simp only [all_space hv, assertThat, if_true, Option.bind_eq_bind, Option.bind_some]
  constructor
  · intro ha
    have hi : Independent v d sp (points.insertionSort S.vecLe) := Independent.perm ⟨hv, ha⟩ hp
    refine ⟨⟨sp, points.insertionSort S.vecLe⟩, ?_, ⟨rfl, hi, ?_⟩, hp⟩
    · rw [base, h.affIndep_true hd hi]; rfl
    · have h1 : (((points.insertionSort S.vecLe).map fun p => toLex (p.val v d)).Pairwise (· ≤ ·)) := by
        rw [h.insertionSort hd hv]
        exact List.pairwise_insertionSort _ _
      have h2 : (((points.insertionSort S.vecLe).map fun p => toLex (p.val v d)).Pairwise (· ≠ ·)) := by
        have := ((indep_iff _).1 hi.indep).1
        have h3 := this.map (f := toLex) toLex.injective
        rw [List.map_map] at h3
        exact h3
      have h3 := h1.and h2
      rw [List.pairwise_map] at h3
      exact h3.imp fun hh => lt_of_le_of_ne hh.1 hh.2
  · intro ha
    have hi : ¬ AffineIndependent K (pointsOf v d (points.insertionSort S.vecLe)) := fun hi => ha (Independent.perm ⟨hv', hi⟩ hp.symm).indep
    rw [base, h.affIndep_false hd hv' hi]; rfl

theorem OrdOps.Models.simplexUnwrap {points : List (Vec α)} (hd : sp.dim = d + 1) (hv : Independent v d sp points) :
    ∃ s, S.simplexUnwrap sp points = some s ∧ s.Valid v d sp ∧ s.points.Perm points := by
  obtain ⟨s, h1, h2, h3⟩ := (h.simplexNew hd hv.mem).1 hv.indep
  exact ⟨s, by unfold OrdOps.simplexUnwrap; rw [h1]; rfl, h2, h3⟩

/-- a list that is already sorted stays as it is -/
theorem OrdOps.Models.simplexUnwrap_sorted {s : Simplex α} (hd : sp.dim = d + 1) (hs : s.Valid v d sp) {l : List (Vec α)} (hl : l.Sublist s.points) :
    S.simplexUnwrap sp l = some ⟨sp, l⟩ := by
  have hv := hs.sublist hl
  have e : l.insertionSort S.vecLe = l := by
    apply List.Pairwise.insertionSort_eq
    have h1 := hv.sorted
    have h2 : l.Pairwise fun a b => (a.In sp ∧ b.In sp) := by
      rw [List.pairwise_iff_forall_sublist]
      intro a b hab
      exact ⟨hv.points.mem _ (hab.subset (by simp)), hv.points.mem _ (hab.subset (by simp))⟩
    exact (h1.and h2).imp fun hh => (h.vecLe hd hh.2.1 hh.2.2).2 hh.1.le
  unfold OrdOps.simplexUnwrap OrdOps.simplexNew
  simp only [all_space hv.points.mem, assertThat, if_true, Option.bind_eq_bind, Option.bind_some, e, h.affIndep_true hd hv.points]
  rfl

theorem OrdOps.Models.subSimplex {s : Simplex α} (hd : sp.dim = d + 1) (hs : s.Valid v d sp) {idxs : List Nat}
    (h1 : idxs.Pairwise (· < ·)) (h2 : ∀ i ∈ idxs, i < s.points.length) :
    ∃ l, S.subSimplex s idxs = some ⟨sp, l⟩ ∧ l.Sublist s.points ∧ s.pick idxs = some l := by
  obtain ⟨is, rfl⟩ : ∃ is : List (Fin s.points.length), idxs = is.map Fin.val := by
    refine ⟨idxs.attach.map fun i => ⟨i.1, h2 i.1 i.2⟩, ?_⟩
    rw [List.map_map]
    exact (List.attach_map_subtype_val idxs).symm
  have hp : is.Pairwise (· < ·) := by rw [List.pairwise_map] at h1; exact h1
  have hpick : s.pick (is.map Fin.val) = some (is.map fun i => s.points[i]) := by
    unfold Simplex.pick
    rw [List.mapM_map]
    apply mapM_eq_map
    intro i _
    exact List.getElem?_eq_getElem i.2
  have hsub : (is.map fun i => s.points[i]).Sublist s.points := List.map_getElem_sublist hp
  refine ⟨_, ?_, hsub, hpick⟩
  unfold OrdOps.subSimplex
  rw [hpick, hs.space]
  exact h.simplexUnwrap_sorted hd hs hsub

/-- the vertices with the given indices -/
def picked (s : Simplex α) (idxs : List Nat) : List (Vec α) := (s.pick idxs).getD []

theorem OrdOps.Models.subSimplexAll {s : Simplex α} (hd : sp.dim = d + 1) (hs : s.Valid v d sp) {L : List (List Nat)}
    (h1 : ∀ idxs ∈ L, idxs.Pairwise (· < ·) ∧ ∀ i ∈ idxs, i < s.points.length) :
    L.mapM (S.subSimplex s) = some (L.map fun idxs => ⟨sp, picked s idxs⟩) := by
  apply mapM_eq_map
  intro idxs hi
  obtain ⟨l, e1, e2, e3⟩ := h.subSimplex hd hs (h1 idxs hi).1 (h1 idxs hi).2
  rw [e1, picked, e3]
  rfl

omit h in
theorem picked_of_fin (s : Simplex α) (is : List (Fin s.points.length)) : picked s (is.map Fin.val) = is.map fun i => s.points[i] := by
  unfold picked Simplex.pick
  rw [List.mapM_map, mapM_eq_map _ (g := fun i : Fin s.points.length => s.points[i])]
  · rfl
  · intro i _
    exact List.getElem?_eq_getElem i.2

omit h in
theorem fin_list {n : Nat} {idxs : List Nat} (h2 : ∀ i ∈ idxs, i < n) : ∃ is : List (Fin n), idxs = is.map Fin.val := by
  refine ⟨idxs.attach.map fun i => ⟨i.1, h2 i.1 i.2⟩, ?_⟩
  rw [List.map_map]
  exact (List.attach_map_subtype_val idxs).symm

omit h in
theorem picked_inj {s : Simplex α} (hs : s.points.Nodup) {a b : List Nat} (ha : ∀ i ∈ a, i < s.points.length)
    (hb : ∀ i ∈ b, i < s.points.length) (e : picked s a = picked s b) : a = b := by
  obtain ⟨is, rfl⟩ := fin_list ha
  obtain ⟨js, rfl⟩ := fin_list hb
  rw [picked_of_fin, picked_of_fin] at e
  have hinj : Function.Injective fun i : Fin s.points.length => s.points[i] := by
    intro i j hij
    exact Fin.ext ((List.Nodup.getElem_inj_iff hs).1 hij)
  rw [(List.map_injective_iff.2 hinj) e]

omit h in
theorem picked_sublist {s : Simplex α} {a : List Nat} (ha : ∀ i ∈ a, i < s.points.length) (hp : a.Pairwise (· < ·)) :
    (picked s a).Sublist s.points ∧ (picked s a).length = a.length := by
  obtain ⟨is, rfl⟩ := fin_list ha
  rw [picked_of_fin]
  exact ⟨List.map_getElem_sublist (by rw [List.pairwise_map] at hp; exact hp), by simp⟩

omit h in
theorem exists_picked {s : Simplex α} {l : List (Vec α)} (hl : l.Sublist s.points) :
    ∃ a : List Nat, (∀ i ∈ a, i < s.points.length) ∧ a.Pairwise (· < ·) ∧ picked s a = l := by
  obtain ⟨is, rfl, h2⟩ := List.sublist_eq_map_getElem hl
  refine ⟨is.map Fin.val, by simp, ?_, picked_of_fin s is⟩
  rw [List.pairwise_map]
  exact h2

omit h in
theorem subsets_nodup (n k : Nat) : (Sets.subsets n k).Nodup :=
  (Sets.subsets_sorted n k).imp fun hab e => by subst e; exact List.lex_irrefl (fun _ h => absurd h (lt_irrefl _)) _ hab

theorem OrdOps.Models.skeleton {s : Simplex α} (hd : sp.dim = d + 1) (hs : s.Valid v d sp) (k : Nat) :
    ∃ l, S.skeleton s k = some l ∧ (∀ t ∈ l, t.Valid v d sp) ∧ (l.map Simplex.points).Perm (s.points.sublistsLen k) := by
  have hL : ∀ idxs ∈ Sets.subsets s.points.length k, idxs.Pairwise (· < ·) ∧ ∀ i ∈ idxs, i < s.points.length :=
    fun idxs hi => ((Sets.mem_subsets _ _ _).1 hi).2
  refine ⟨(Sets.subsets s.points.length k).map fun idxs => ⟨sp, picked s idxs⟩, ?_, ?_, ?_⟩
  · unfold OrdOps.skeleton
    rw [if_neg (by omega), Int.toNat_natCast, h.subSimplexAll hd hs hL]
  · intro t ht
    obtain ⟨idxs, hi, rfl⟩ := List.mem_map.1 ht
    exact hs.sublist (picked_sublist (hL idxs hi).2 (hL idxs hi).1).1
  · rw [List.map_map]
    rw [List.perm_ext_iff_of_nodup]
    · intro l
      rw [List.mem_map, List.mem_sublistsLen]
      constructor
      · rintro ⟨a, ha, rfl⟩
        have := picked_sublist (hL a ha).2 (hL a ha).1
        exact ⟨this.1, this.2.trans ((Sets.mem_subsets _ _ _).1 ha).1⟩
      · rintro ⟨h1, h2⟩
        obtain ⟨a, a1, a2, rfl⟩ := exists_picked h1
        exact ⟨a, (Sets.mem_subsets _ _ _).2 ⟨(picked_sublist a1 a2).2.symm.trans h2, a2, a1⟩, rfl⟩
    · apply (List.nodup_map_iff_inj_on (subsets_nodup _ _)).2
      intro a ha b hb e
      exact picked_inj hs.points.nodup (hL a ha).2 (hL b hb).2 e
    · exact List.nodup_sublistsLen k hs.points.nodup

theorem OrdOps.Models.facet {s : Simplex α} (hd : sp.dim = d + 1) (hs : s.Valid v d sp) {k : Nat} (hk : k < s.points.length) :
    S.facet s k = some ⟨sp, s.points.eraseIdx k⟩ := by
  unfold OrdOps.facet
  simp only [assertThat, hk, hk.le, decide_true, if_true, Option.bind_eq_bind, Option.bind_some, hs.space]
  exact h.simplexUnwrap_sorted hd hs (List.eraseIdx_sublist _ _)

theorem OrdOps.Models.subSimplices {s : Simplex α} (hd : sp.dim = d + 1) (hs : s.Valid v d sp) :
    ∃ l, S.subSimplices s = some l ∧ (∀ t ∈ l, t.Valid v d sp) ∧ (l.map Simplex.points).Perm s.points.sublists := by
  have hL : ∀ idxs ∈ (List.range (s.points.length + 1)).flatMap fun k => Sets.subsets s.points.length k,
      idxs.Pairwise (· < ·) ∧ ∀ i ∈ idxs, i < s.points.length := by
    intro idxs hi
    obtain ⟨k, -, hk⟩ := List.mem_flatMap.1 hi
    exact ((Sets.mem_subsets _ _ _).1 hk).2
  refine ⟨_, h.subSimplexAll hd hs hL, ?_, ?_⟩
  · intro t ht
    obtain ⟨idxs, hi, rfl⟩ := List.mem_map.1 ht
    exact hs.sublist (picked_sublist (hL idxs hi).2 (hL idxs hi).1).1
  · rw [List.map_map]
    rw [List.perm_ext_iff_of_nodup]
    · intro l
      rw [List.mem_map, List.mem_sublists]
      constructor
      · rintro ⟨a, ha, rfl⟩
        exact (picked_sublist (hL a ha).2 (hL a ha).1).1
      · intro h1
        obtain ⟨a, a1, a2, rfl⟩ := exists_picked h1
        refine ⟨a, List.mem_flatMap.2 ⟨a.length, ?_, (Sets.mem_subsets _ _ _).2 ⟨rfl, a2, a1⟩⟩, rfl⟩
        have := h1.length_le
        rw [(picked_sublist a1 a2).2] at this
        simp; omega
    · apply (List.nodup_map_iff_inj_on _).2
      · intro a ha b hb e
        exact picked_inj hs.points.nodup (hL a ha).2 (hL b hb).2 e
      · rw [List.nodup_flatMap]
        refine ⟨fun k _ => subsets_nodup _ _, ?_⟩
        refine (List.nodup_range).imp_of_mem ?_ 
        intro a b _ _ hab l ha hb
        exact hab (((Sets.mem_subsets _ _ _).1 ha).1.symm.trans ((Sets.mem_subsets _ _ _).1 hb).1)
    · exact List.nodup_sublists.2 hs.points.nodup

theorem OrdOps.Models.simplexEq {s t : Simplex α} (hd : sp.dim = d + 1) (hs : s.Valid v d sp) (ht : t.Valid v d sp) :
    S.simplexEq s t = some (decide (pointSet v d s.points = pointSet v d t.points)) := by
  have key : ∀ (l m : List (Vec α)), (∀ p ∈ l, p.In sp) → (∀ p ∈ m, p.In sp) → l.length = m.length → ∀ b : Bool,
      (l.zip m).foldlM (fun b pq => if b then S.vecEq pq.1 pq.2 else some false) b =
        some (b && decide (l.map (Vec.val v d) = m.map (Vec.val v d))) := by
    intro l
    induction l with
    | nil => intro m _ _ hl b; cases m with
      | nil => simp
      | cons => simp at hl
    | cons p l ih => intro m h1 h2 hl b; cases m with
      | nil => simp at hl
      | cons q m =>
        have e := h.vecEq hd (h1 p (by simp)) (h2 q (by simp))
        have ih := ih m (fun p hp => h1 p (by simp [hp])) (fun p hp => h2 p (by simp [hp])) (by simpa using hl)
        rw [List.zip_cons_cons, List.foldlM_cons]
        cases b
        · simp only [Bool.false_eq_true, if_false]
          change List.foldlM _ false (l.zip m) = _
          rw [ih]; simp
        · simp only [if_true, e]
          change List.foldlM _ (decide _) (l.zip m) = _
          rw [ih]
          simp
  have hset : ∀ {u : Simplex α}, u.Valid v d sp → ∀ x, x ∈ u.points.map (Vec.val v d) ↔ x ∈ pointSet v d u.points := by
    intro u _ x
    simp [pointSet, List.mem_map]
  have hsort : ∀ {u : Simplex α}, u.Valid v d sp → (u.points.map (Vec.val v d)).Pairwise fun a b => toLex a < toLex b := by
    intro u hu
    rw [List.pairwise_map]
    exact hu.sorted
  have hiff : s.points.map (Vec.val v d) = t.points.map (Vec.val v d) ↔ pointSet v d s.points = pointSet v d t.points := by
    constructor
    · intro e
      ext x
      rw [← hset hs, ← hset ht, e]
    · intro e
      apply List.Perm.eq_of_pairwise (le := fun a b => toLex a < toLex b) _ (hsort hs) (hsort ht)
      · rw [List.perm_ext_iff_of_nodup ((indep_iff _).1 hs.points.indep).1 ((indep_iff _).1 ht.points.indep).1]
        intro x
        rw [hset hs, hset ht, e]
      · intro a b _ _ h1 h2
        exact absurd (h1.trans h2) (lt_irrefl _)
  unfold OrdOps.simplexEq
  rw [hs.space, ht.space, if_pos rfl]
  by_cases hl : s.points.length = t.points.length
  · rw [if_pos hl, key _ _ hs.points.mem ht.points.mem hl]
    simp only [Bool.true_and, Option.some.injEq]
    rw [Bool.eq_iff_iff, decide_eq_true_iff, decide_eq_true_iff, hiff]
  · rw [if_neg hl]
    simp only [Option.some.injEq]
    symm
    rw [decide_eq_false_iff_not, ← hiff]
    intro e
    exact hl (by simpa using congrArg List.length e)

end

end Verif.Geometry
