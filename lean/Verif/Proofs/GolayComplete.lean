import Verif.Proofs.GolayNew
import Mathlib.Data.List.OfFn

/-!
# Completing four points to a sextet
-/

namespace Verif.Golay
open Finset Verif.Rings

theorem sextet_iff {C : Submodule (ZMod 2) (Fin 24 → ZMod 2)} {T : Fin 6 → Finset Pt} :
    IsSextet C T ↔ Sextet (famOf C) (List.ofFn T) := by
  constructor
  · intro h
    refine ⟨by simp, ?_, ?_, ?_⟩
    · intro t ht
      obtain ⟨i, rfl⟩ := (List.mem_ofFn' T t).1 ht
      exact h.four i
    · rw [List.pairwise_ofFn]
      exact fun i j hij => h.disjoint i j hij.ne
    · rw [List.pairwise_ofFn]
      exact fun i j hij => mem_famOf.2 (h.codeword i j hij.ne)
  · intro h
    have d := List.pairwise_ofFn.1 h.disj
    have c := List.pairwise_ofFn.1 h.code
    refine ⟨fun i => h.four _ ((List.mem_ofFn' T _).2 ⟨i, rfl⟩), ?_, ?_⟩
    · intro i j hij
      rcases lt_or_gt_of_ne hij with hh | hh
      · exact d hh
      · exact (d hh).symm
    · intro i j hij
      rcases lt_or_gt_of_ne hij with hh | hh
      · exact mem_famOf.1 (c hh)
      · rw [union_comm]; exact mem_famOf.1 (c hh)

theorem takePoint_loop (l : List Nat) (o acc : List Nat) (hl : l.Nodup) (ho : o.Nodup) (hs : ∀ p ∈ l, p ∈ o) :
    ∃ o', l.foldlM takePoint (o, acc) = some (o', acc ++ l) ∧ o'.Nodup ∧ ∀ p, p ∈ o' ↔ p ∈ o ∧ p ∉ l := by
  induction l generalizing o acc with
  | nil => exact ⟨o, by simp, ho, by simp⟩
  | cons a l ih =>
    rw [List.nodup_cons] at hl
    have ha := hs a List.mem_cons_self
    obtain ⟨o', h1, h2, h3⟩ := ih (o.erase a) (acc ++ [a]) hl.2 (ho.erase a) (by
      intro p hp
      rw [ho.mem_erase_iff]
      exact ⟨fun e => hl.1 (e ▸ hp), hs p (List.mem_cons_of_mem _ hp)⟩)
    refine ⟨o', ?_, h2, ?_⟩
    · rw [List.foldlM_cons]
      have : takePoint (o, acc) a = some (o.erase a, acc ++ [a]) := by
        simp [takePoint, assertThat, ha]
      rw [this]
      simp only [Option.bind_eq_bind, Option.bind_some, h1]
      simp
    · intro p
      rw [h3, ho.mem_erase_iff, List.mem_cons]
      tauto

theorem erase_loop (l o : List Nat) (ho : o.Nodup) :
    (l.foldl (fun o pt => o.erase pt) o).Nodup ∧ ∀ p, p ∈ l.foldl (fun o pt => o.erase pt) o ↔ p ∈ o ∧ p ∉ l := by
  induction l generalizing o with
  | nil => exact ⟨ho, by simp⟩
  | cons a l ih =>
    obtain ⟨h1, h2⟩ := ih (o.erase a) (ho.erase a)
    refine ⟨h1, fun p => ?_⟩
    rw [List.foldl_cons, h2, ho.mem_erase_iff, List.mem_cons]
    tauto

/-- What is known after `i` rounds. -/
structure RoundInv (C : Finset (Finset Pt)) (four : Vector24) (i : Nat) (st : List Nat × List Vector24) (vs : List Vector24) : Prop where
  len : vs.length = i
  parts : st.2 = four :: vs ++ List.replicate (5 - i) Vector24.zero
  valid : ∀ v ∈ vs, v.Valid
  part : ∀ v ∈ vs, v.set.card = 4 ∧ Disjoint four.set v.set ∧ four.set ∪ v.set ∈ C
  disj : (vs.map Vector24.set).Pairwise Disjoint
  nodup : st.1.Nodup
  mem : ∀ p, p ∈ st.1 ↔ ∃ h : p < 24, (⟨p, h⟩ : Pt) ∉ four.set ∧ ∀ v ∈ vs, (⟨p, h⟩ : Pt) ∉ v.set

theorem mem_foldr {p : Pt} {L : List (Finset Pt)} : p ∈ L.foldr (· ∪ ·) ∅ ↔ ∃ t ∈ L, p ∈ t := by
  induction L with
  | nil => simp
  | cons a L ih => simp only [List.foldr_cons, mem_union, ih, List.mem_cons, exists_eq_or_imp]

theorem RoundInv.length {C : Finset (Finset Pt)} {four : Vector24} (hF : four.set.card = 4) {i : Nat} {st : List Nat × List Vector24}
    {vs : List Vector24} (h : RoundInv C four i st vs) : st.1.length = 20 - 4 * i := by
  have hd : (four.set :: vs.map Vector24.set).Pairwise Disjoint := by
    rw [List.pairwise_cons]
    refine ⟨?_, h.disj⟩
    intro t ht
    obtain ⟨v, hv, rfl⟩ := List.mem_map.1 ht
    exact (h.part v hv).2.1
  have hc := card_list hd
  have h4 : (four.set :: vs.map Vector24.set).map Finset.card = List.replicate (i + 1) 4 := by
    rw [List.eq_replicate_iff]
    refine ⟨by simp [h.len], ?_⟩
    intro b hb
    simp only [List.map_cons, List.map_map, List.mem_cons, List.mem_map, Function.comp] at hb
    rcases hb with rfl | ⟨v, hv, rfl⟩
    · exact hF
    · exact (h.part v hv).1
  rw [h4, List.sum_replicate, smul_eq_mul] at hc
  have hp : st.1.Perm (((four.set :: vs.map Vector24.set).foldr (· ∪ ·) ∅)ᶜ.toList.map Fin.val) := by
    rw [List.perm_ext_iff_of_nodup h.nodup ((nodup_toList _).map Fin.val_injective)]
    intro p
    rw [h.mem, List.mem_map]
    constructor
    · rintro ⟨hp, h1, h2⟩
      refine ⟨⟨p, hp⟩, ?_, rfl⟩
      rw [mem_toList, mem_compl, mem_foldr]
      rintro ⟨t, ht, hpt⟩
      rcases List.mem_cons.1 ht with rfl | ht
      · exact h1 hpt
      · obtain ⟨v, hv, rfl⟩ := List.mem_map.1 ht
        exact h2 v hv hpt
    · rintro ⟨q, hq, rfl⟩
      rw [mem_toList, mem_compl, mem_foldr] at hq
      refine ⟨q.2, fun hh => hq ⟨_, List.mem_cons_self, hh⟩, fun v hv hh => hq ⟨v.set, List.mem_cons_of_mem _ (List.mem_map.2 ⟨v, hv, rfl⟩), hh⟩⟩
  rw [hp.length_eq, List.length_map, length_toList, card_compl, hc, Fintype.card_fin]
  omega

theorem sextetStep_spec {g : Code} {C : Submodule (ZMod 2) (Fin 24 → ZMod 2)} (hC : IsGolay C) (hg : CodeOk g C) {four : Vector24}
    (hF : four.set.card = 4) {order : Nat → List Nat → List Nat} (ho : ∀ i l, (order i l).Perm l) {i : Nat} (hi : i < 5)
    {st : List Nat × List Vector24} {vs : List Vector24} (h : RoundInv (famOf C) four i st vs) :
    ∃ st' v, g.sextetStep four order st i = some st' ∧ RoundInv (famOf C) four (i + 1) st' (vs ++ [v]) := by
  have hFam := fam_of hC
  have hlen := h.length hF
  obtain ⟨p, rest, hp⟩ : ∃ p rest, order i st.1 = p :: rest := by
    cases e : order i st.1 with
    | nil =>
      have := (ho i st.1).length_eq
      rw [e, hlen] at this
      simp only [List.length_nil] at this
      omega
    | cons p rest => exact ⟨p, rest, rfl⟩
  have hpm : p ∈ st.1 := (ho i st.1).subset (by rw [hp]; exact List.mem_cons_self)
  obtain ⟨hp24, hpF, hpv⟩ := (h.mem p).1 hpm
  obtain ⟨five, f1, f2, f3⟩ := fromPoints_spec (l := (order i st.1).take 1 ++ four.pts) (by
    intro q hq
    rw [hp] at hq
    simp only [List.take_succ_cons, List.take_zero, List.cons_append, List.nil_append, List.mem_cons] at hq
    rcases hq with rfl | hq
    · exact hp24
    · exact (mem_pts.1 hq).1)
  have hfive : five.set = insert (⟨p, hp24⟩ : Pt) four.set := by
    ext q
    rw [f3, hp, mem_insert]
    simp only [List.take_succ_cons, List.take_zero, List.cons_append, List.nil_append, List.mem_cons]
    rw [mem_pts', Fin.ext_iff]
  have hf5 : five.set.card = 5 := by rw [hfive, card_insert_of_notMem hpF, hF]
  obtain ⟨o, o1, o2, o3, o4, o5⟩ := completeOctad_spec hg f2 hf5
  rw [hfive] at o5
  obtain ⟨q1, q2, q3⟩ := part_of hF o4 o5
  have hnew : ∀ v ∈ vs, Disjoint v.set (o.set \ four.set) := by
    intro v hv
    rw [disjoint_left]
    intro r hr hr'
    obtain ⟨a1, a2, a3⟩ := h.part v hv
    have := hFam.part_eq hF a1 q1 a2 q3 a3 (by rw [q2]; exact o3) hr hr'
    apply hpv v hv
    rw [this]
    exact mem_sdiff.2 ⟨o5 (mem_insert_self _ _), hpF⟩
  have hmemf : ∀ r, r ∈ o.pts.filter (fun pt => !four.has pt) ↔ ∃ hr : r < 24, (⟨r, hr⟩ : Pt) ∈ o.set \ four.set := by
    intro r
    rw [List.mem_filter, mem_pts]
    constructor
    · rintro ⟨⟨h1, h2⟩, h3⟩
      refine ⟨h1, mem_sdiff.2 ⟨h2, fun hh => ?_⟩⟩
      have := (has_iff (v := four) (i := ⟨r, h1⟩)).2 hh
      simp only at this
      rw [this] at h3
      exact absurd h3 (by decide)
    · rintro ⟨h1, h2⟩
      rw [mem_sdiff] at h2
      refine ⟨⟨h1, h2.1⟩, ?_⟩
      rw [Bool.not_eq_true']
      cases hb : four.has r
      · rfl
      · exact absurd ((has_iff (v := four) (i := ⟨r, h1⟩)).1 hb) h2.2
  obtain ⟨o', t1, t2, t3⟩ := takePoint_loop (o.pts.filter fun pt => !four.has pt) st.1 [] ((nodup_pts o).filter _) h.nodup (by
    intro r hr
    obtain ⟨h1, h2⟩ := (hmemf r).1 hr
    exact (h.mem r).2 ⟨h1, (mem_sdiff.1 h2).2, fun v hv hh => disjoint_left.1 (hnew v hv) hh h2⟩)
  obtain ⟨v, v1, v2, v3⟩ := fromPoints_spec (l := o.pts.filter fun pt => !four.has pt) fun r hr => ((hmemf r).1 hr).1
  have hv : v.set = o.set \ four.set := by
    ext r
    rw [v3, hmemf]
    exact ⟨fun ⟨_, hh⟩ => hh, fun hh => ⟨r.2, hh⟩⟩
  refine ⟨(o', st.2.set (i + 1) v), v, ?_, ?_⟩
  · unfold Code.sextetStep
    simp only [hlen, assertThat, beq_self_eq_true, if_true, Option.bind_eq_bind, Option.bind_some, f1, o1, t1, List.nil_append, v1]
  · refine ⟨by simp [h.len], ?_, ?_, ?_, ?_, t2, ?_⟩
    · change st.2.set (i + 1) v = _
      rw [h.parts, show 5 - i = (5 - (i + 1)) + 1 by omega, List.replicate_succ]
      simp only [List.cons_append, List.set_cons_succ, List.cons.injEq, true_and, List.append_assoc]
      rw [List.set_append_right _ _ (by rw [h.len]), h.len]
      simp
    · intro w hw
      rcases List.mem_append.1 hw with hw | hw
      · exact h.valid w hw
      · rw [List.mem_singleton.1 hw]; exact v2
    · intro w hw
      rcases List.mem_append.1 hw with hw | hw
      · exact h.part w hw
      · rw [List.mem_singleton.1 hw, hv]
        exact ⟨q1, q3, by rw [q2]; exact o3⟩
    · rw [List.map_append, List.pairwise_append]
      refine ⟨h.disj, by simp, ?_⟩
      intro a ha b hb
      obtain ⟨w, hw, rfl⟩ := List.mem_map.1 ha
      simp only [List.map_cons, List.map_nil, List.mem_singleton] at hb
      rw [hb, hv]
      exact hnew w hw
    · intro r
      change r ∈ o' ↔ _
      rw [t3, h.mem, hmemf]
      constructor
      · rintro ⟨⟨h1, h2, h3⟩, h4⟩
        refine ⟨h1, h2, fun w hw => ?_⟩
        rcases List.mem_append.1 hw with hw | hw
        · exact h3 w hw
        · rw [List.mem_singleton.1 hw, hv]
          exact fun hh => h4 ⟨h1, hh⟩
      · rintro ⟨h1, h2, h3⟩
        refine ⟨⟨h1, h2, fun w hw => h3 w (List.mem_append_left _ hw)⟩, ?_⟩
        rintro ⟨h4, hh⟩
        exact h3 v (by simp) (by rw [hv]; exact hh)

theorem sextet_loop {g : Code} {C : Submodule (ZMod 2) (Fin 24 → ZMod 2)} (hC : IsGolay C) (hg : CodeOk g C) {four : Vector24}
    (hF : four.set.card = 4) {order : Nat → List Nat → List Nat} (ho : ∀ i l, (order i l).Perm l) (n : Nat) (hn : n ≤ 5) :
    ∃ st vs, (List.range n).foldlM (g.sextetStep four order)
      (four.pts.foldl (fun o pt => o.erase pt) (List.range 24), (List.replicate 6 Vector24.zero).set 0 four) = some st ∧
      RoundInv (famOf C) four n st vs := by
  induction n with
  | zero =>
    refine ⟨_, [], rfl, rfl, by simp [List.replicate_succ], by simp, by simp, by simp, (erase_loop _ _ List.nodup_range).1, ?_⟩
    intro p
    change p ∈ four.pts.foldl (fun o pt => o.erase pt) (List.range 24) ↔ _
    rw [(erase_loop _ _ List.nodup_range).2, List.mem_range, mem_pts]
    constructor
    · rintro ⟨h1, h2⟩; exact ⟨h1, fun hh => h2 ⟨h1, hh⟩, by simp⟩
    · rintro ⟨h1, h2, -⟩; exact ⟨h1, fun ⟨_, hh⟩ => h2 hh⟩
  | succ n ih =>
    obtain ⟨st, vs, h1, h2⟩ := ih (by omega)
    obtain ⟨st', v, h3, h4⟩ := sextetStep_spec hC hg hF ho (by omega) h2
    refine ⟨st', vs ++ [v], ?_, h4⟩
    rw [List.range_succ (n := n), List.foldlM_append, h1]
    simp only [List.foldlM_cons, List.foldlM_nil, Option.bind_eq_bind, Option.bind_some, h3]
    rfl

theorem completeSextet_spec {g : Code} {C : Submodule (ZMod 2) (Fin 24 → ZMod 2)} (hC : IsGolay C) (hg : CodeOk g C) {four : Vector24}
    (hv : four.Valid) (hF : four.set.card = 4) {order : Nat → List Nat → List Nat} (ho : ∀ i l, (order i l).Perm l) :
    ∃ p : Fin 6 → Vector24, g.completeSextet order four = some (List.ofFn p) ∧ p 0 = four ∧ (∀ i, (p i).Valid) ∧
      IsSextet C fun i => (p i).set := by
  obtain ⟨st, vs, h1, h2⟩ := sextet_loop hC hg hF ho 5 le_rfl
  have hl := h2.length hF
  have he : st.1 = [] := List.eq_nil_of_length_eq_zero (by omega)
  have hs := (fam_of hC).sextet_of hF (L := vs.map Vector24.set) (by simp [h2.len]) (by
    intro t ht
    obtain ⟨v, hv, rfl⟩ := List.mem_map.1 ht
    exact h2.part v hv) h2.disj
  have hp : st.2 = four :: vs := by rw [h2.parts]; simp
  have hcs : g.completeSextet order four = some (four :: vs) := by
    unfold Code.completeSextet
    simp only [h1, Option.bind_eq_bind, Option.bind_some, he, assertThat, List.isEmpty_nil, if_true, hp]
  have h5 := h2.len
  match vs, h5 with
  | [a, b, c, d, e], _ =>
    refine ⟨![four, a, b, c, d, e], hcs, rfl, ?_, ?_⟩
    · intro i
      have hva := h2.valid
      fin_cases i
      · exact hv
      · exact hva a (by simp)
      · exact hva b (by simp)
      · exact hva c (by simp)
      · exact hva d (by simp)
      · exact hva e (by simp)
    · rw [sextet_iff]
      exact hs

/-- with another number of points the first assertion fails -/
theorem completeSextet_none {g : Code} {four : Vector24} (hF : four.set.card ≠ 4) {order : Nat → List Nat → List Nat} :
    g.completeSextet order four = none := by
  have hlen : (four.pts.foldl (fun o pt => o.erase pt) (List.range 24)).length = 24 - four.set.card := by
    obtain ⟨h1, h2⟩ := erase_loop four.pts (List.range 24) List.nodup_range
    have hp : (four.pts.foldl (fun o pt => o.erase pt) (List.range 24)).Perm (four.setᶜ.toList.map Fin.val) := by
      rw [List.perm_ext_iff_of_nodup h1 ((nodup_toList _).map Fin.val_injective)]
      intro p
      rw [h2, List.mem_range, mem_pts, List.mem_map]
      constructor
      · rintro ⟨a, b⟩
        exact ⟨⟨p, a⟩, by rw [mem_toList, mem_compl]; exact fun hh => b ⟨a, hh⟩, rfl⟩
      · rintro ⟨q, hq, rfl⟩
        rw [mem_toList, mem_compl] at hq
        exact ⟨q.2, fun ⟨_, hh⟩ => hq hh⟩
    rw [hp.length_eq, List.length_map, length_toList, card_compl, Fintype.card_fin]
  have hle : four.set.card ≤ 24 := by simpa using card_le_univ four.set
  have hb : (24 - four.set.card == 20 - 4 * 0) = false := by
    rw [beq_eq_false_iff_ne]; omega
  unfold Code.completeSextet
  dsimp only
  rw [show List.range 5 = 0 :: [1, 2, 3, 4] from rfl, List.foldlM_cons]
  unfold Code.sextetStep
  simp only [hlen, hb, assertThat, Bool.false_eq_true, if_false, Option.bind_eq_bind, Option.bind_none]

/-- the foursomes of a sextet are determined by one of them -/
theorem sextet_unique {C : Submodule (ZMod 2) (Fin 24 → ZMod 2)} (hC : IsGolay C) {T T' : Fin 6 → Finset Pt} (h : IsSextet C T) (h' : IsSextet C T')
    (h0 : T 0 = T' 0) (i : Fin 6) : ∃ j, T i = T' j := by
  by_cases hi : i = 0
  · exact ⟨0, by rw [hi, h0]⟩
  have hFam := fam_of hC
  obtain ⟨r, hr⟩ : (T i).Nonempty := card_pos.1 (by rw [h.four]; omega)
  have hcov := (sextet_iff.1 h').cover
  have : r ∈ (List.ofFn T').foldr (· ∪ ·) ∅ := by rw [hcov]; exact mem_univ _
  obtain ⟨t, ht, hrt⟩ := mem_foldr.1 this
  obtain ⟨j, rfl⟩ := (List.mem_ofFn' T' t).1 ht
  refine ⟨j, ?_⟩
  have hj : j ≠ 0 := by
    rintro rfl
    rw [← h0] at hrt
    exact disjoint_left.1 (h.disjoint 0 i (fun e => hi e.symm)) hrt hr
  exact hFam.part_eq (F := T 0) (h.four 0) (h.four i) (h'.four j) (h.disjoint 0 i (fun e => hi e.symm))
    (by rw [h0]; exact h'.disjoint 0 j (fun e => hj e.symm)) (mem_famOf.2 (h.codeword 0 i (fun e => hi e.symm)))
    (by rw [h0]; exact mem_famOf.2 (h'.codeword 0 j (fun e => hj e.symm))) hr hrt

end Verif.Golay
