import Verif.Proofs.GolayMath
import Mathlib.Algebra.Group.Nat.Even

/-!
# Sextets, and the self-orthogonality of Golay codes
-/

namespace Verif.Golay
open Finset

/-- Six disjoint foursomes, any two of them together a member of the family. -/
structure Sextet (C : Finset (Finset Pt)) (L : List (Finset Pt)) : Prop where
  length : L.length = 6
  four : ∀ t ∈ L, t.card = 4
  disj : L.Pairwise Disjoint
  code : L.Pairwise fun s t => s ∪ t ∈ C

section
variable {C : Finset (Finset Pt)} (h : Fam C)
include h

/-- two foursomes that extend `F` to octads are equal or disjoint -/
theorem Fam.part_eq {F t t' : Finset Pt} (hF : F.card = 4) (ht : t.card = 4) (ht' : t'.card = 4) (d : Disjoint F t) (d' : Disjoint F t')
    (m : F ∪ t ∈ C) (m' : F ∪ t' ∈ C) {r : Pt} (hr : r ∈ t) (hr' : r ∈ t') : t = t' := by
  have e : F ∪ t = F ∪ t' := by
    apply h.octad_unique m m' (by rw [card_union_of_disjoint d]; omega) (by rw [card_union_of_disjoint d']; omega)
    have : insert r F ⊆ (F ∪ t) ∩ (F ∪ t') := by
      intro i hi
      rcases mem_insert.1 hi with rfl | hi
      · simp [hr, hr']
      · simp [hi]
    have c := card_le_card this
    rw [card_insert_of_notMem (fun hh => disjoint_left.1 d hh hr)] at c
    omega
  rw [← union_sdiff_cancel_left d, e, union_sdiff_cancel_left d']

theorem Fam.next {F : Finset Pt} (hF : F.card = 4) {p : Pt} (hp : p ∉ F) : ∃ O ∈ C, O.card = 8 ∧ insert p F ⊆ O :=
  h.octad_exists _ (by rw [card_insert_of_notMem hp]; omega)

omit h in
theorem part_of {F O : Finset Pt} (hF : F.card = 4) {p : Pt} (hO : O.card = 8) (hs : insert p F ⊆ O) :
    (O \ F).card = 4 ∧ F ∪ O \ F = O ∧ Disjoint F (O \ F) := by
  have hs' : F ⊆ O := (subset_insert _ _).trans hs
  refine ⟨by rw [card_sdiff_of_subset hs']; omega, union_sdiff_of_subset hs', disjoint_sdiff⟩

/-- What is known after `n` rounds of the construction of a sextet. -/
theorem Fam.partial_sextet {F : Finset Pt} (hF : F.card = 4) (n : Nat) (hn : n ≤ 5) :
    ∃ L : List (Finset Pt), L.length = n ∧ (∀ t ∈ L, t.card = 4 ∧ Disjoint F t ∧ F ∪ t ∈ C) ∧ L.Pairwise Disjoint := by
  induction n with
  | zero => exact ⟨[], rfl, by simp, List.Pairwise.nil⟩
  | succ n ih =>
    obtain ⟨L, h1, h2, h3⟩ := ih (by omega)
    have key : ∀ L : List (Finset Pt), (∀ t ∈ L, t.card = 4) → (L.foldr (· ∪ ·) ∅).card ≤ 4 * L.length := by
      intro L
      induction L with
      | nil => simp
      | cons a L ih =>
        intro hh
        have := ih (fun t ht => hh t (List.mem_cons_of_mem _ ht))
        have ha := hh a List.mem_cons_self
        have := card_union_le a (L.foldr (· ∪ ·) ∅)
        simp only [List.foldr_cons, List.length_cons]
        omega
    have hmem : ∀ L : List (Finset Pt), ∀ t ∈ L, t ⊆ L.foldr (· ∪ ·) ∅ := by
      intro L
      induction L with
      | nil => simp
      | cons a L ih =>
        intro t ht
        rcases List.mem_cons.1 ht with rfl | ht
        · exact subset_union_left
        · exact (ih t ht).trans subset_union_right
    have k := key L (fun t ht => (h2 t ht).1)
    obtain ⟨p, hp⟩ : ∃ p, p ∉ F ∪ L.foldr (· ∪ ·) ∅ := by
      by_contra hcon
      push Not at hcon
      have : F ∪ L.foldr (· ∪ ·) ∅ = univ := eq_univ_iff_forall.2 hcon
      have c := card_union_le F (L.foldr (· ∪ ·) ∅)
      rw [this, card_univ, Fintype.card_fin] at c
      omega
    rw [mem_union, not_or] at hp
    obtain ⟨O, m, cO, hs⟩ := h.next hF hp.1
    obtain ⟨q1, q2, q3⟩ := part_of hF cO hs
    refine ⟨(O \ F) :: L, by simp [h1], ?_, List.pairwise_cons.2 ⟨?_, h3⟩⟩
    · intro t ht
      rcases List.mem_cons.1 ht with rfl | ht
      · exact ⟨q1, q3, by rw [q2]; exact m⟩
      · exact h2 t ht
    · intro t ht
      rw [disjoint_left]
      intro r hr hr'
      obtain ⟨a1, a2, a3⟩ := h2 t ht
      have := h.part_eq hF q1 a1 q3 a2 (by rw [q2]; exact m) a3 hr hr'
      apply hp.2
      apply hmem L t ht
      rw [← this]
      exact mem_sdiff.2 ⟨hs (mem_insert_self _ _), hp.1⟩

theorem Fam.union_mem {F t t' : Finset Pt} (d : Disjoint F t) (d' : Disjoint F t') (dd : Disjoint t t') (m : F ∪ t ∈ C) (m' : F ∪ t' ∈ C) :
    t ∪ t' ∈ C := by
  have := h.add _ m _ m'
  have e : symmDiff (F ∪ t) (F ∪ t') = t ∪ t' := by
    ext i
    simp only [mem_symmDiff, mem_union]
    have b1 : i ∈ F → i ∉ t := fun hh => disjoint_left.1 d hh
    have b2 : i ∈ F → i ∉ t' := fun hh => disjoint_left.1 d' hh
    have b3 : i ∈ t → i ∉ t' := fun hh => disjoint_left.1 dd hh
    clear this
    tauto
  rwa [e] at this

theorem Fam.sextet_of {F : Finset Pt} (hF : F.card = 4) {L : List (Finset Pt)} (hl : L.length = 5)
    (h2 : ∀ t ∈ L, t.card = 4 ∧ Disjoint F t ∧ F ∪ t ∈ C) (h3 : L.Pairwise Disjoint) : Sextet C (F :: L) where
  length := by simp [hl]
  four t ht := by
    rcases List.mem_cons.1 ht with rfl | ht
    · exact hF
    · exact (h2 t ht).1
  disj := List.pairwise_cons.2 ⟨fun t ht => (h2 t ht).2.1, h3⟩
  code := by
    refine List.pairwise_cons.2 ⟨fun t ht => (h2 t ht).2.2, ?_⟩
    apply h3.imp_of_mem
    intro s t hs ht d
    exact h.union_mem (h2 s hs).2.1 (h2 t ht).2.1 d (h2 s hs).2.2 (h2 t ht).2.2

theorem Fam.sextet_exists {F : Finset Pt} (hF : F.card = 4) : ∃ L, Sextet C (F :: L) := by
  obtain ⟨L, h1, h2, h3⟩ := h.partial_sextet hF 5 le_rfl
  exact ⟨L, h.sextet_of hF h1 h2 h3⟩

end

theorem disj_list {s : Finset Pt} {L : List (Finset Pt)} (hd : ∀ t ∈ L, Disjoint s t) : Disjoint s (L.foldr (· ∪ ·) ∅) := by
  induction L with
  | nil => simp
  | cons a L ih =>
    simp only [List.foldr_cons, disjoint_union_right]
    exact ⟨hd a List.mem_cons_self, ih fun t ht => hd t (List.mem_cons_of_mem _ ht)⟩

theorem card_list {L : List (Finset Pt)} (hd : L.Pairwise Disjoint) : (L.foldr (· ∪ ·) ∅).card = (L.map Finset.card).sum := by
  induction L with
  | nil => simp
  | cons a L ih =>
    rw [List.pairwise_cons] at hd
    simp only [List.foldr_cons, List.map_cons, List.sum_cons]
    rw [card_union_of_disjoint (disj_list hd.1), ih hd.2]

theorem inter_list (u : Finset Pt) (L : List (Finset Pt)) : u ∩ L.foldr (· ∪ ·) ∅ = (L.map (u ∩ ·)).foldr (· ∪ ·) ∅ := by
  induction L with
  | nil => simp
  | cons a L ih => simp only [List.foldr_cons, List.map_cons, inter_union_distrib_left, ih]

variable {C : Finset (Finset Pt)}

theorem Sextet.cover {L : List (Finset Pt)} (hs : Sextet C L) : L.foldr (· ∪ ·) ∅ = univ := by
  rw [← card_eq_iff_eq_univ, card_list hs.disj]
  have : L.map Finset.card = List.replicate 6 4 := by
    rw [List.eq_replicate_iff]
    refine ⟨by simp [hs.length], ?_⟩
    intro b hb
    obtain ⟨t, ht, rfl⟩ := List.mem_map.1 hb
    exact hs.four t ht
  rw [this]
  rfl

/-- the points of any set are distributed over the six foursomes -/
theorem Sextet.sum {t0 t1 t2 t3 t4 t5 : Finset Pt} (hs : Sextet C [t0, t1, t2, t3, t4, t5]) (u : Finset Pt) :
    (u ∩ t0).card + (u ∩ t1).card + (u ∩ t2).card + (u ∩ t3).card + (u ∩ t4).card + (u ∩ t5).card = u.card := by
  have h1 := inter_list u [t0, t1, t2, t3, t4, t5]
  rw [hs.cover, inter_univ] at h1
  have h2 : (([t0, t1, t2, t3, t4, t5] : List (Finset Pt)).map (u ∩ ·)).Pairwise Disjoint := by
    rw [List.pairwise_map]
    exact hs.disj.imp fun d => d.mono inter_subset_right inter_subset_right
  have h3 := card_list h2
  rw [← h1] at h3
  simp only [List.map_cons, List.map_nil, List.sum_cons, List.sum_nil] at h3
  omega

theorem card_inter_union {u s t : Finset Pt} (d : Disjoint s t) : (u ∩ (s ∪ t)).card = (u ∩ s).card + (u ∩ t).card := by
  rw [inter_union_distrib_left, card_union_of_disjoint (d.mono inter_subset_right inter_subset_right)]

/-- two different octads have at most four common points -/
theorem Fam.inter_le (h : Fam C) {s t : Finset Pt} (hs : s ∈ C) (ht : t ∈ C) (cs : s.card = 8) (ct : t.card = 8) (hne : s ≠ t) :
    (s ∩ t).card ≤ 4 := by
  by_contra hcon
  exact hne (h.octad_unique hs ht cs ct (by omega))

/-- an octad and two foursomes of a sextet -/
theorem Fam.pair_le (h : Fam C) {u s t : Finset Pt} (hu : u ∈ C) (cu : u.card = 8) (m : s ∪ t ∈ C) (d : Disjoint s t) (cs : s.card = 4)
    (ct : t.card = 4) (hne : (u ∩ s).card ≠ 4 ∨ (u ∩ t).card ≠ 4) : (u ∩ s).card + (u ∩ t).card ≤ 4 := by
  rw [← card_inter_union d]
  apply h.inter_le hu m cu (by rw [card_union_of_disjoint d]; omega)
  rintro rfl
  rcases hne with hn | hn <;> apply hn
  · rw [union_inter_cancel_left, cs]
  · rw [union_inter_cancel_right, ct]

/-- all the inequalities for an octad that has one, two or three points in the first foursome -/
theorem Fam.le_four (h : Fam C) {L : List (Finset Pt)} (hs : Sextet C L) {u : Finset Pt} (hu : u ∈ C) (cu : u.card = 8)
    (hn : ∀ s ∈ L, (u ∩ s).card ≠ 4) : L.Pairwise fun s t => (u ∩ s).card + (u ∩ t).card ≤ 4 := by
  refine (hs.disj.and hs.code).imp_of_mem ?_
  rintro s t ms mt ⟨d, m⟩
  exact h.pair_le hu cu m d (hs.four s ms) (hs.four t mt) (Or.inl (hn s ms))

theorem list6 {α : Type} {L : List α} (hl : L.length = 6) : ∃ a b c d e f, L = [a, b, c, d, e, f] := by
  match L, hl with
  | [a, b, c, d, e, f], _ => exact ⟨a, b, c, d, e, f, rfl⟩

/-- If one foursome is contained in an octad, the octad is the union of two foursomes. -/
theorem Fam.contains_four (h : Fam C) {L : List (Finset Pt)} (hs : Sextet C L) {u s t : Finset Pt} (hu : u ∈ C) (cu : u.card = 8)
    (ms : s ∈ L) (mt : t ∈ L) (hne : s ≠ t) (h1 : (u ∩ s).card = 4) (h2 : (u ∩ t).Nonempty) : u = s ∪ t := by
  have dm : Disjoint s t ∧ s ∪ t ∈ C := by
    have hpw := (hs.disj.and hs.code)
    haveI : Std.Symm fun s t : Finset Pt => Disjoint s t ∧ s ∪ t ∈ C :=
      ⟨fun _ _ hh => by rw [disjoint_comm, union_comm]; exact hh⟩
    exact hpw.forall ms mt hne
  apply h.octad_unique hu dm.2 cu (by rw [card_union_of_disjoint dm.1, hs.four s ms, hs.four t mt])
  rw [card_inter_union dm.1]
  have := card_pos.2 h2
  omega

/-- the part of an octad outside a foursome inside it is one of the foursomes of the sextet -/
theorem Fam.part_in (h : Fam C) {O F : Finset Pt} (hO : O ∈ C) (cO : O.card = 8) (hF : F.card = 4) (hFO : F ⊆ O) :
    ∃ L, Sextet C (F :: L) ∧ O \ F ∈ L := by
  obtain ⟨L, hs⟩ := h.sextet_exists hF
  refine ⟨L, hs, ?_⟩
  obtain ⟨p, hp⟩ : (O \ F).Nonempty := card_pos.1 (by rw [card_sdiff_of_subset hFO]; omega)
  have hc : p ∈ (F :: L).foldr (· ∪ ·) ∅ := by rw [hs.cover]; exact mem_univ _
  have aux : ∀ L : List (Finset Pt), p ∈ L.foldr (· ∪ ·) ∅ → ∃ t ∈ L, p ∈ t := by
    intro L
    induction L with
    | nil => simp
    | cons a L ih =>
      intro hh
      rcases mem_union.1 hh with hh | hh
      · exact ⟨a, List.mem_cons_self, hh⟩
      · obtain ⟨t, h1, h2⟩ := ih hh
        exact ⟨t, List.mem_cons_of_mem _ h1, h2⟩
  obtain ⟨t, ht, hpt⟩ := aux _ hc
  rcases List.mem_cons.1 ht with rfl | ht
  · exact absurd hpt (mem_sdiff.1 hp).2
  · have e1 := List.pairwise_cons.1 hs.disj
    have e2 := List.pairwise_cons.1 hs.code
    have := h.part_eq (t := O \ F) (t' := t) hF (by rw [card_sdiff_of_subset hFO]; omega) (hs.four t (List.mem_cons_of_mem _ ht)) disjoint_sdiff
      (e1.1 t ht) (by rw [union_sdiff_of_subset hFO]; exact hO) (e2.1 t ht) hp hpt
    rw [this]
    exact ht

theorem Fam.not_three (h : Fam C) {O u : Finset Pt} (hO : O ∈ C) (cO : O.card = 8) (hu : u ∈ C) (cu : u.card = 8) : (O ∩ u).card ≠ 3 := by
  intro h3
  obtain ⟨p, hp⟩ : (O \ u).Nonempty := card_pos.1 (by have := card_sdiff_add_card_inter O u; omega)
  rw [mem_sdiff] at hp
  have hpn : p ∉ O ∩ u := fun hh => hp.2 (mem_inter.1 hh).2
  have hF : (insert p (O ∩ u)).card = 4 := by rw [card_insert_of_notMem hpn, h3]
  have hFO : insert p (O ∩ u) ⊆ O := insert_subset hp.1 inter_subset_left
  obtain ⟨L, hs, hm⟩ := h.part_in hO cO hF hFO
  have n0 : (u ∩ insert p (O ∩ u)).card = 3 := by
    rw [← h3]
    congr 1
    ext i
    simp only [mem_inter, mem_insert]
    constructor
    · rintro ⟨a, rfl | b⟩
      · exact absurd a hp.2
      · exact b
    · exact fun hh => ⟨hh.2, Or.inr hh⟩
  have nz : (u ∩ (O \ insert p (O ∩ u))).card = 0 := by
    rw [card_eq_zero, eq_empty_iff_forall_notMem]
    intro i hi
    simp only [mem_inter, mem_sdiff, mem_insert, not_or] at hi
    exact hi.2.2.2 ⟨hi.2.1, hi.1⟩
  have e1 := List.pairwise_cons.1 hs.disj
  have e2 := List.pairwise_cons.1 hs.code
  have one : ∀ t ∈ L, (u ∩ t).card ≤ 1 := by
    intro t ht
    have := h.pair_le hu cu (e2.1 t ht) (e1.1 t ht) hF (hs.four t (List.mem_cons_of_mem _ ht)) (Or.inl (by omega))
    omega
  generalize insert p (O ∩ u) = F at *
  obtain ⟨a, b, c, d, e, f, hL⟩ := list6 hs.length
  obtain ⟨rfl, rfl⟩ := List.cons.inj hL
  have sum := hs.sum u
  have o1 := one b (by simp)
  have o2 := one c (by simp)
  have o3 := one d (by simp)
  have o4 := one e (by simp)
  have o5 := one f (by simp)
  simp only [List.mem_cons, List.not_mem_nil, or_false] at hm
  rcases hm with hm | hm | hm | hm | hm <;> rw [hm] at nz <;> omega

theorem Fam.not_one (h : Fam C) {O u : Finset Pt} (hO : O ∈ C) (cO : O.card = 8) (hu : u ∈ C) (cu : u.card = 8) : (O ∩ u).card ≠ 1 := by
  intro h3
  obtain ⟨F, hSF, hFO, hF⟩ := exists_subsuperset_card_eq (inter_subset_left : O ∩ u ⊆ O) (n := 4) (by omega) (by omega)
  obtain ⟨L, hs, hm⟩ := h.part_in hO cO hF hFO
  have n0 : (u ∩ F).card = 1 := by
    rw [← h3]
    congr 1
    ext i
    constructor
    · intro hh
      rw [mem_inter] at hh ⊢
      exact ⟨hFO hh.2, hh.1⟩
    · intro hh
      exact mem_inter.2 ⟨(mem_inter.1 hh).2, hSF hh⟩
  have nz : (u ∩ (O \ F)).card = 0 := by
    rw [card_eq_zero, eq_empty_iff_forall_notMem]
    intro i hi
    simp only [mem_inter, mem_sdiff] at hi
    exact hi.2.2 (hSF (mem_inter.2 ⟨hi.2.1, hi.1⟩))
  have e1 := List.pairwise_cons.1 hs.disj
  have e2 := List.pairwise_cons.1 hs.code
  have one : ∀ t ∈ L, (u ∩ t).card ≤ 3 ∧ (u ∩ t).card ≠ 2 := by
    intro t ht
    have c4 := hs.four t (List.mem_cons_of_mem _ ht)
    have := h.pair_le hu cu (e2.1 t ht) (e1.1 t ht) hF c4 (Or.inl (by omega))
    have n3 := h.not_three (e2.1 t ht) (by rw [card_union_of_disjoint (e1.1 t ht)]; omega) hu cu
    rw [inter_comm, card_inter_union (e1.1 t ht)] at n3
    omega
  have pairs : (F :: L).Pairwise fun s t => (u ∩ s).card + (u ∩ t).card ≤ 4 := by
    apply h.le_four hs hu cu
    intro s ms
    rcases List.mem_cons.1 ms with rfl | ms
    · omega
    · have := one s ms
      omega
  obtain ⟨a, b, c, d, e, f, hL⟩ := list6 hs.length
  obtain ⟨rfl, rfl⟩ := List.cons.inj hL
  have sum := hs.sum u
  have o1 := one b (by simp)
  have o2 := one c (by simp)
  have o3 := one d (by simp)
  have o4 := one e (by simp)
  have o5 := one f (by simp)
  simp only [List.pairwise_cons, List.mem_cons, List.not_mem_nil, or_false, forall_eq_or_imp, forall_eq] at pairs
  simp only [List.mem_cons, List.not_mem_nil, or_false] at hm
  rcases hm with hm | hm | hm | hm | hm <;> rw [hm] at nz <;> omega

theorem Fam.octads_even (h : Fam C) {O u : Finset Pt} (hO : O ∈ C) (cO : O.card = 8) (hu : u ∈ C) (cu : u.card = 8) :
    (O ∩ u).card % 2 = 0 := by
  by_cases hne : O = u
  · subst hne; rw [inter_self, cO]
  have le := h.inter_le hO hu cO cu hne
  have n1 := h.not_one hO cO hu cu
  have n3 := h.not_three hO cO hu cu
  omega

theorem inter_symm (s t u : Finset Pt) : (symmDiff s t ∩ u).card % 2 = ((s ∩ u).card + (t ∩ u).card) % 2 := by
  have : symmDiff s t ∩ u = symmDiff (s ∩ u) (t ∩ u) := inf_symmDiff_distrib_right s t u
  rw [this]
  have := card_symm (s ∩ u) (t ∩ u)
  omega

/-- every member is a sum of octads: induction over members -/
theorem Fam.induction (h : Fam C) {P : Finset Pt → Prop} (h0 : P ∅)
    (hstep : ∀ c ∈ C, ∀ O ∈ C, O.card = 8 → P c → P (symmDiff c O)) {c : Finset Pt} (hc : c ∈ C) : P c := by
  induction hn : c.card using Nat.strong_induction_on generalizing c with
  | _ n ih =>
    by_cases he : c = ∅
    · rw [he]; exact h0
    · have h8 := h.min c hc he
      obtain ⟨T, hT, cT⟩ := exists_subset_card_eq (s := c) (n := 5) (by omega)
      obtain ⟨O, mO, cO, hTO⟩ := h.octad_exists T cT
      have k1 := card_symm c O
      have k2 : 5 ≤ (c ∩ O).card := by
        rw [← cT]
        exact card_le_card (subset_inter hT hTO)
      have := hstep (symmDiff c O) (h.add c hc O mO) O mO cO (ih _ (by omega) (h.add c hc O mO) rfl)
      rwa [symmDiff_symmDiff_cancel_right] at this

/-- Golay codes are self-orthogonal. -/
theorem Fam.even (h : Fam C) {s t : Finset Pt} (hs : s ∈ C) (ht : t ∈ C) : (s ∩ t).card % 2 = 0 := by
  refine h.induction (P := fun c => ∀ t ∈ C, (c ∩ t).card % 2 = 0) (by simp) ?_ hs t ht
  intro c _ O mO cO ih t ht
  have k1 := ih t ht
  have k2 : (O ∩ t).card % 2 = 0 := by
    refine h.induction (P := fun c => (O ∩ c).card % 2 = 0) (by simp) ?_ ht
    intro c _ u mu cu ih
    have := h.octads_even mO cO mu cu
    have e := inter_symm c u O
    rw [inter_comm _ O, inter_comm _ O, inter_comm _ O] at e
    omega
  have := inter_symm c O t
  omega

end Verif.Golay
