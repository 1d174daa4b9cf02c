import Verif.Proofs.MultiPoly

/-!
# The ring operations on polynomials in several variables
-/

namespace Verif.Rings

open MvPolynomial

section Val
variable {α R : Type} [CommSemiring R] (v : α → R)

theorem mpVal_nil : mpVal v [] = 0 := by simp [mpVal]

theorem mpVal_cons (t : α × Mono) (p : MPoly α) : mpVal v (t :: p) = monomial (monoVal t.2) (v t.1) + mpVal v p := by
  simp [mpVal]

theorem mpVal_append (p q : MPoly α) : mpVal v (p ++ q) = mpVal v p + mpVal v q := by
  simp [mpVal]

theorem mpVal_perm {p q : MPoly α} (h : p.Perm q) : mpVal v p = mpVal v q := (h.map _).sum_eq

theorem mpVal_single (t : α × Mono) : mpVal v [t] = monomial (monoVal t.2) (v t.1) := by simp [mpVal]

theorem mpVal_new (p : MPoly α) : mpVal v (MPoly.new p) = mpVal v p :=
  mpVal_perm v (List.perm_insertionSort _ _)

theorem coeff_mpVal_of_notMem {p : MPoly α} (hp : ∀ t ∈ p, Mono.WF t.2) {m : Mono} (hm : m.WF)
    (h : m ∉ p.map Prod.snd) : coeff (monoVal m) (mpVal v p) = 0 := by
  induction p with
  | nil => simp [mpVal_nil]
  | cons t p ih =>
    simp only [List.map_cons, List.mem_cons, not_or] at h
    rw [mpVal_cons, coeff_add, ih (fun t ht => hp t (List.mem_cons_of_mem _ ht)) h.2, coeff_monomial, if_neg, add_zero]
    exact fun he => h.1 (monoVal_inj (hp t List.mem_cons_self) hm he).symm

theorem coeff_mpVal_of_mem {p : MPoly α} (hp : p.WF) {t : α × Mono} (ht : t ∈ p) :
    coeff (monoVal t.2) (mpVal v p) = v t.1 := by
  induction p with
  | nil => simp at ht
  | cons s p ih =>
    have hn := hp.nodup
    simp only [List.map_cons, List.nodup_cons] at hn
    have hp' : MPoly.WF p := ⟨fun t ht => hp.mono t (List.mem_cons_of_mem _ ht), hn.2⟩
    rw [mpVal_cons, coeff_add]
    rcases List.mem_cons.1 ht with rfl | ht
    · rw [coeff_monomial, if_pos rfl, coeff_mpVal_of_notMem v hp'.mono (hp.mono t List.mem_cons_self) hn.1, add_zero]
    · rw [ih hp' ht, coeff_monomial, if_neg, zero_add]
      intro he
      have := monoVal_inj (hp.mono s List.mem_cons_self) (hp'.mono t ht) he
      exact hn.1 (this ▸ List.mem_map.2 ⟨t, ht, rfl⟩)

theorem coeff_mpVal_ne {p : MPoly α} {s : ℕ →₀ ℕ} (h : coeff s (mpVal v p) ≠ 0) : ∃ t ∈ p, monoVal t.2 = s := by
  by_contra hn
  push Not at hn
  apply h
  clear h
  induction p with
  | nil => simp [mpVal_nil]
  | cons t p ih =>
    rw [mpVal_cons, coeff_add, coeff_monomial, if_neg (hn t List.mem_cons_self),
      ih fun t ht => hn t (List.mem_cons_of_mem _ ht), add_zero]

/-- The monomials of a reduced well-formed polynomial are those with nonzero coefficient. -/
theorem mem_monos_iff {p : MPoly α} (hp : p.WF) (hr : p.Reduced v) (m : Mono) :
    m ∈ p.map Prod.snd ↔ m.WF ∧ coeff (monoVal m) (mpVal v p) ≠ 0 := by
  constructor
  · intro h
    obtain ⟨t, ht, rfl⟩ := List.mem_map.1 h
    exact ⟨hp.mono t ht, by rw [coeff_mpVal_of_mem v hp ht]; exact hr t ht⟩
  · rintro ⟨hm, hc⟩
    by_contra hn
    exact hc (coeff_mpVal_of_notMem v hp.mono hm hn)

theorem mem_support_mpVal {p : MPoly α} (hp : p.WF) (hr : p.Reduced v) (s : ℕ →₀ ℕ) :
    s ∈ (mpVal v p).support ↔ ∃ t ∈ p, monoVal t.2 = s := by
  rw [mem_support_iff]
  refine ⟨coeff_mpVal_ne v, ?_⟩
  rintro ⟨t, ht, rfl⟩
  rw [coeff_mpVal_of_mem v hp ht]
  exact hr t ht

end Val

section New
variable {α : Type}

theorem MPoly.wf_perm {p q : MPoly α} (h : p.Perm q) (hq : q.WF) : p.WF :=
  ⟨fun t ht => hq.mono t (h.mem_iff.1 ht), (h.map _).nodup_iff.2 hq.nodup⟩

theorem MPoly.wf_sublist {p q : MPoly α} (h : p.Sublist q) (hq : q.WF) : p.WF :=
  ⟨fun t ht => hq.mono t (h.subset ht), hq.nodup.sublist (h.map _)⟩

theorem MPoly.new_perm (p : MPoly α) : (MPoly.new p).Perm p := List.perm_insertionSort _ _

theorem MPoly.new_sorted {p : MPoly α} (hp : (p.map Prod.snd).Nodup) : (MPoly.new p).Sorted := by
  have hs := List.pairwise_insertionSort (termLe (α := α)) p
  have hn : ((MPoly.new p).map Prod.snd).Nodup := ((MPoly.new_perm p).map _).nodup_iff.2 hp
  refine (hs.and (List.pairwise_map.1 hn)).imp fun {a b} h => ?_
  rcases (termLe_iff _ _).1 h.1 with h' | h'
  · exact h'
  · exact absurd h' h.2

theorem MPoly.nil_wf : MPoly.WF ([] : MPoly α) := ⟨by simp, by simp⟩

theorem MPoly.single_wf {t : α × Mono} (h : t.2.WF) : MPoly.WF [t] := ⟨by simpa using h, by simp⟩

end New

section Semi
variable {α R : Type} [CommSemiring R] {S : SemiRingOps α} {v : α → R}

theorem SemiRingOps.Models.isZero_iff' (h : S.Models v) (c : α) : S.isZero c = true ↔ v c = 0 := by
  rw [SemiRingOps.isZero, h.equal, h.zero]

theorem SemiRingOps.Models.mpVal_filter (h : S.Models v) (p : MPoly α) :
    mpVal v (p.filter fun t => !S.isZero t.1) = mpVal v p := by
  induction p with
  | nil => rfl
  | cons t p ih =>
    by_cases hz : S.isZero t.1 = true
    · rw [List.filter_cons_of_neg (by simp [hz]), ih, mpVal_cons, (h.isZero_iff' _).1 hz, monomial_zero, zero_add]
    · rw [List.filter_cons_of_pos (by simpa using hz), mpVal_cons, mpVal_cons, ih]

theorem SemiRingOps.Models.mpReduce_val (h : S.Models v) (p : MPoly α) : mpVal v (S.mpReduce p) = mpVal v p := by
  rw [SemiRingOps.mpReduce, mpVal_new, h.mpVal_filter]

theorem SemiRingOps.mpReduce_perm (S : SemiRingOps α) (p : MPoly α) :
    (S.mpReduce p).Perm (p.filter fun t => !S.isZero t.1) := MPoly.new_perm _

theorem SemiRingOps.mpReduce_wf (S : SemiRingOps α) {p : MPoly α} (hp : p.WF) : (S.mpReduce p).WF :=
  MPoly.wf_perm (S.mpReduce_perm p) (MPoly.wf_sublist List.filter_sublist hp)

theorem SemiRingOps.Models.mpReduce_reduced (h : S.Models v) (p : MPoly α) : (S.mpReduce p).Reduced v := by
  intro t ht
  have := (S.mpReduce_perm p).mem_iff.1 ht
  simp only [List.mem_filter, Bool.not_eq_true', ] at this
  intro h0
  rw [(h.isZero_iff' _).2 h0] at this
  simp at this

theorem SemiRingOps.mpReduce_sorted (S : SemiRingOps α) {p : MPoly α} (hp : p.WF) : (S.mpReduce p).Sorted :=
  MPoly.new_sorted (MPoly.wf_sublist List.filter_sublist hp).nodup

theorem sorted_monos_eq {β γ : Type} {p : MPoly β} {q : MPoly γ} (hp : p.Sorted) (hq : q.Sorted)
    (h : ∀ m, m ∈ p.map Prod.snd ↔ m ∈ q.map Prod.snd) (hpn : (p.map Prod.snd).Nodup) (hqn : (q.map Prod.snd).Nodup) :
    p.map Prod.snd = q.map Prod.snd := by
  have hperm : (p.map Prod.snd).Perm (q.map Prod.snd) := (List.perm_ext_iff_of_nodup hpn hqn).2 h
  have hp' : (p.map Prod.snd).Pairwise fun a b => Mono.lexCmp a b = .lt := List.pairwise_map.2 hp
  have hq' : (q.map Prod.snd).Pairwise fun a b => Mono.lexCmp a b = .lt := List.pairwise_map.2 hq
  refine hperm.eq_of_pairwise ?_ hp' hq'
  intro a b _ _ hab hba
  have := lexCmp_lt_trans hab hba
  rw [lexCmp_refl] at this
  cases this

/-- Two reduced sorted polynomials with the same value have the same monomials and equal coefficients. -/
theorem canon_ext {p q : MPoly α} (hp : p.WF) (hq : q.WF) (hpr : p.Reduced v) (hqr : q.Reduced v) (hps : p.Sorted)
    (hqs : q.Sorted) (h : mpVal v p = mpVal v q) :
    p.map Prod.snd = q.map Prod.snd ∧ p.map (fun t => v t.1) = q.map fun t => v t.1 := by
  have hm : p.map Prod.snd = q.map Prod.snd := sorted_monos_eq hps hqs
    (fun m => by rw [mem_monos_iff v hp hpr, mem_monos_iff v hq hqr, h]) hp.nodup hq.nodup
  refine ⟨hm, ?_⟩
  have hl : p.length = q.length := by simpa using congrArg List.length hm
  apply List.ext_getElem (by simpa using hl)
  intro i hi hi'
  simp only [List.length_map] at hi hi'
  simp only [List.getElem_map]
  have hmi : (p[i]).2 = (q[i]).2 := by
    have := List.getElem_of_eq hm (i := i) (by simpa using hi)
    simpa using this
  rw [← coeff_mpVal_of_mem v hp (List.getElem_mem hi), ← coeff_mpVal_of_mem v hq (List.getElem_mem hi'), hmi, h]

theorem SemiRingOps.Models.zip_all (h : S.Models v) {p q : MPoly α} (hl : p.length = q.length) :
    ((p.zip q).all fun st => S.equal st.1.1 st.2.1 && decide (st.1.2 = st.2.2)) = true ↔
      p.map Prod.snd = q.map Prod.snd ∧ p.map (fun t => v t.1) = q.map fun t => v t.1 := by
  induction p generalizing q with
  | nil => cases q with
    | nil => simp
    | cons => simp at hl
  | cons t p ih => cases q with
    | nil => simp at hl
    | cons u q =>
      have := ih (q := q) (by simpa using hl)
      simp only [List.zip_cons_cons, List.all_cons, Bool.and_eq_true, h.equal, decide_eq_true_eq, this, List.map_cons,
        List.cons.injEq]
      tauto

theorem mpVal_eq_of_lists {p q : MPoly α} (h1 : p.map Prod.snd = q.map Prod.snd)
    (h2 : (p.map fun t => v t.1) = q.map fun t => v t.1) : mpVal v p = mpVal v q := by
  induction p generalizing q with
  | nil => cases q with
    | nil => rfl
    | cons => simp at h1
  | cons t p ih => cases q with
    | nil => simp at h1
    | cons u q =>
      simp only [List.map_cons, List.cons.injEq] at h1 h2
      rw [mpVal_cons, mpVal_cons, ih h1.2 h2.2, h1.1, h2.1]

theorem SemiRingOps.Models.mpEqual_iff (h : S.Models v) {p q : MPoly α} (hp : p.WF) (hq : q.WF) :
    S.mpEqual p q = true ↔ mpVal v p = mpVal v q := by
  have hlists : S.mpEqual p q = true ↔ (S.mpReduce p).map Prod.snd = (S.mpReduce q).map Prod.snd ∧
      ((S.mpReduce p).map fun t => v t.1) = (S.mpReduce q).map fun t => v t.1 := by
    rw [SemiRingOps.mpEqual]
    by_cases hl : (S.mpReduce p).length = (S.mpReduce q).length
    · simp only [hl, ne_eq, not_true_eq_false, if_false]
      exact h.zip_all hl
    · simp only [hl, ne_eq, not_false_eq_true, if_true]
      refine ⟨fun h => by simp at h, fun h => (hl ?_).elim⟩
      simpa using congrArg List.length h.1
  rw [hlists, ← h.mpReduce_val p, ← h.mpReduce_val q]
  exact ⟨fun h' => mpVal_eq_of_lists h'.1 h'.2, canon_ext (S.mpReduce_wf hp) (S.mpReduce_wf hq)
    (h.mpReduce_reduced p) (h.mpReduce_reduced q) (S.mpReduce_sorted hp) (S.mpReduce_sorted hq)⟩

/-! ### Addition -/

theorem existingMonomial_spec (a : MPoly α) (m : Mono) :
    (existingMonomial a m = none ∧ m ∉ a.map Prod.snd) ∨
      ∃ i c, existingMonomial a m = some i ∧ a[i]? = some (c, m) := by
  have key : ∀ n ≤ a.length,
      ((List.range n).foldl (fun found i => if (a[i]?).map Prod.snd = some m then some i else found) none = none ∧
        m ∉ (a.take n).map Prod.snd) ∨
      ∃ i c, (List.range n).foldl (fun found i => if (a[i]?).map Prod.snd = some m then some i else found) none = some i ∧
        a[i]? = some (c, m) := by
    intro n
    induction n with
    | zero => intro _; left; simp
    | succ n ih =>
      intro hn
      rw [List.range_succ, List.foldl_append]
      simp only [List.foldl_cons, List.foldl_nil]
      have hget : a[n]? = some (a[n]'(by omega)) := List.getElem?_eq_getElem (by omega)
      by_cases hm : (a[n]?).map Prod.snd = some m
      · right
        refine ⟨n, (a[n]'(by omega)).1, by rw [if_pos hm], ?_⟩
        rw [hget] at hm ⊢
        simp only [Option.map_some, Option.some.injEq] at hm
        rw [← hm]
      · rw [if_neg hm]
        rcases ih (by omega) with h | h
        · left
          refine ⟨h.1, ?_⟩
          rw [List.take_add_one, hget]
          simp only [Option.toList_some, List.map_append, List.mem_append, not_or]
          refine ⟨h.2, ?_⟩
          rw [hget] at hm
          simpa [eq_comm] using hm
        · exact .inr h
  have := key a.length le_rfl
  rwa [List.take_length] at this

theorem mpVal_modify (hadd : ∀ a b, v (S.add a b) = v a + v b) (a : MPoly α) (c x : α) (m : Mono) (i : Nat)
    (hi : a[i]? = some (x, m)) :
    mpVal v (a.modify i fun s => (S.add s.1 c, s.2)) = mpVal v a + monomial (monoVal m) (v c) := by
  induction a generalizing i with
  | nil => simp at hi
  | cons t a ih =>
    cases i with
    | zero =>
      simp only [List.getElem?_cons_zero, Option.some.injEq] at hi
      subst hi
      simp only [List.modify_zero_cons, mpVal_cons, hadd, map_add]
      abel
    | succ i =>
      simp only [List.getElem?_cons_succ] at hi
      simp only [List.modify_succ_cons, mpVal_cons, ih i hi]
      abel

theorem monos_modify (a : MPoly α) (c : α) (i : Nat) :
    (a.modify i fun s => (S.add s.1 c, s.2)).map Prod.snd = a.map Prod.snd := by
  induction a generalizing i with
  | nil => simp
  | cons t a ih => cases i with
    | zero => simp
    | succ i => simp [ih]

theorem mpAddStep_spec (hadd : ∀ a b, v (S.add a b) = v a + v b) (a0 a : MPoly α) (t : α × Mono) (l : List Mono)
    (ha : a.map Prod.snd = a0.map Prod.snd ++ l) :
    mpVal v (S.mpAddStep a0 a t) = mpVal v a + monomial (monoVal t.2) (v t.1) ∧
      (S.mpAddStep a0 a t).map Prod.snd =
        a0.map Prod.snd ++ (l ++ if t.2 ∈ a0.map Prod.snd then [] else [t.2]) := by
  rcases existingMonomial_spec a0 t.2 with ⟨h1, h2⟩ | ⟨i, c, h1, h2⟩
  · rw [SemiRingOps.mpAddStep, h1]
    refine ⟨by simp [mpVal_append, mpVal_single], ?_⟩
    simp only [if_neg h2, List.map_append, ha, List.map_cons, List.map_nil, List.append_assoc]
  · rw [SemiRingOps.mpAddStep, h1]
    have hmem : t.2 ∈ a0.map Prod.snd := List.mem_map.2 ⟨(c, t.2), List.mem_of_getElem? h2, rfl⟩
    have hi : ∃ x, a[i]? = some (x, t.2) := by
      have h3 : (a0.map Prod.snd)[i]? = some t.2 := by rw [List.getElem?_map, h2]; rfl
      have h4 : (a.map Prod.snd)[i]? = some t.2 := by
        rw [ha, List.getElem?_append_left, h3]
        exact (List.getElem?_eq_some_iff.1 h3).1
      rw [List.getElem?_map] at h4
      cases h5 : a[i]? with
      | none => simp [h5] at h4
      | some s =>
        simp only [h5, Option.map_some, Option.some.injEq] at h4
        exact ⟨s.1, by rw [← h4]⟩
    obtain ⟨x, hx⟩ := hi
    refine ⟨mpVal_modify hadd a t.1 x t.2 i hx, ?_⟩
    simp only [if_pos hmem, List.append_nil, monos_modify, ha]

theorem mpAddFold_spec (hadd : ∀ a b, v (S.add a b) = v a + v b) (a0 : MPoly α) (b a : MPoly α) (l : List Mono)
    (ha : a.map Prod.snd = a0.map Prod.snd ++ l) :
    mpVal v (b.foldl (S.mpAddStep a0) a) = mpVal v a + mpVal v b ∧
      (b.foldl (S.mpAddStep a0) a).map Prod.snd =
        a0.map Prod.snd ++ (l ++ (b.map Prod.snd).filter fun m => m ∉ a0.map Prod.snd) := by
  induction b generalizing a l with
  | nil => exact ⟨by simp [mpVal_nil], by simpa using ha⟩
  | cons t b ih =>
    obtain ⟨h1, h2⟩ := mpAddStep_spec hadd a0 a t l ha
    obtain ⟨h3, h4⟩ := ih _ _ h2
    refine ⟨?_, ?_⟩
    · rw [List.foldl_cons, h3, h1, mpVal_cons]; abel
    · rw [List.foldl_cons, h4, List.map_cons]
      by_cases hm : t.2 ∈ a0.map Prod.snd
      · rw [if_pos hm, List.filter_cons_of_neg (by simpa using hm)]; simp
      · rw [if_neg hm, List.filter_cons_of_pos (by simpa using hm)]; simp

theorem SemiRingOps.Models.mpAdd_val (h : S.Models v) (a b : MPoly α) : mpVal v (S.mpAdd a b) = mpVal v a + mpVal v b := by
  rw [SemiRingOps.mpAdd, h.mpReduce_val, (mpAddFold_spec h.add a b a [] (by simp)).1]

theorem SemiRingOps.Models.mpAddFold_wf (h : S.Models v) {a b : MPoly α} (ha : a.WF) (hb : b.WF) :
    MPoly.WF (b.foldl (S.mpAddStep a) a) := by
  have hm := (mpAddFold_spec h.add a b a [] (by simp)).2
  rw [List.nil_append] at hm
  refine ⟨?_, ?_⟩
  · intro t ht
    have : t.2 ∈ (b.foldl (S.mpAddStep a) a).map Prod.snd := List.mem_map.2 ⟨t, ht, rfl⟩
    rw [hm, List.mem_append, List.mem_filter] at this
    rcases this with h' | ⟨h', _⟩
    · obtain ⟨s, hs, hst⟩ := List.mem_map.1 h'
      exact hst ▸ ha.mono s hs
    · obtain ⟨s, hs, hst⟩ := List.mem_map.1 h'
      exact hst ▸ hb.mono s hs
  · rw [hm, List.nodup_append]
    refine ⟨ha.nodup, hb.nodup.filter _, ?_⟩
    intro x hx y hy hxy
    subst hxy
    simp only [List.mem_filter, decide_eq_true_eq] at hy
    exact hy.2 hx

theorem SemiRingOps.Models.mpAdd_wf (h : S.Models v) {a b : MPoly α} (ha : a.WF) (hb : b.WF) : (S.mpAdd a b).WF :=
  S.mpReduce_wf (h.mpAddFold_wf ha hb)

theorem SemiRingOps.Models.mpAdd_reduced (h : S.Models v) (a b : MPoly α) : (S.mpAdd a b).Reduced v :=
  h.mpReduce_reduced _

theorem SemiRingOps.Models.mpAdd_sorted (h : S.Models v) {a b : MPoly α} (ha : a.WF) (hb : b.WF) :
    (S.mpAdd a b).Sorted := S.mpReduce_sorted (h.mpAddFold_wf ha hb)

/-! ### Multiplication -/

/-- The value of the table of `mul`. -/
noncomputable def tableVal (v : α → R) (l : List (Mono × α)) : MvPolynomial ℕ R :=
  (l.map fun e => monomial (monoVal e.1) (v e.2)).sum

theorem SemiRingOps.Models.addEntry_val (h : S.Models v) (m : Mono) (c : α) (l : List (Mono × α)) :
    tableVal v (addEntry S.add S.zero m c l) = tableVal v l + monomial (monoVal m) (v c) :=
  addEntry_sum (fun m c => monomial (monoVal m) (v c)) S.add S.zero (fun k x y => by rw [h.add, map_add])
    (fun k => by rw [h.zero, monomial_zero]) m c l

/-- The invariant of the table of `mul`. -/
def TableOk (l : List (Mono × α)) : Prop := (l.map Prod.fst).Nodup ∧ ∀ e ∈ l, Mono.WF e.1

theorem TableOk.addEntry {l : List (Mono × α)} (hl : TableOk l) (add : α → α → α) (zero : α) {m : Mono} (hm : m.WF)
    (c : α) : TableOk (addEntry add zero m c l) :=
  ⟨(addEntry_keys _ _ _ _ _ hl.1).1, addEntry_mem_key Mono.WF _ _ _ _ _ hm hl.2⟩

theorem SemiRingOps.Models.mulRow (h : S.Models v) (H : HashOrder) (s : α × Mono) (b : MPoly α) (l : List (Mono × α))
    (hl : TableOk l) :
    TableOk (b.foldl (fun l t => addEntry S.add S.zero (Mono.mul H s.2 t.2) (S.mul s.1 t.1) l) l) ∧
      tableVal v (b.foldl (fun l t => addEntry S.add S.zero (Mono.mul H s.2 t.2) (S.mul s.1 t.1) l) l) =
        tableVal v l + monomial (monoVal s.2) (v s.1) * mpVal v b := by
  induction b generalizing l with
  | nil => exact ⟨hl, by simp [mpVal_nil]⟩
  | cons t b ih =>
    obtain ⟨h1, h2⟩ := ih _ (hl.addEntry S.add S.zero (Mono.mul_wf H s.2 t.2) (S.mul s.1 t.1))
    refine ⟨h1, ?_⟩
    rw [List.foldl_cons, h2, h.addEntry_val, mpVal_cons, monoVal_mul, h.mul, mul_add, monomial_mul]
    abel

theorem SemiRingOps.Models.mulTable (h : S.Models v) (H : HashOrder) (a b : MPoly α) (l : List (Mono × α))
    (hl : TableOk l) :
    TableOk (a.foldl (fun l s => b.foldl (fun l t => addEntry S.add S.zero (Mono.mul H s.2 t.2) (S.mul s.1 t.1) l) l) l) ∧
      tableVal v (a.foldl (fun l s =>
        b.foldl (fun l t => addEntry S.add S.zero (Mono.mul H s.2 t.2) (S.mul s.1 t.1) l) l) l) =
        tableVal v l + mpVal v a * mpVal v b := by
  induction a generalizing l with
  | nil => exact ⟨hl, by simp [mpVal_nil]⟩
  | cons s a ih =>
    obtain ⟨h1, h2⟩ := h.mulRow H s b l hl
    obtain ⟨h3, h4⟩ := ih _ h1
    refine ⟨h3, ?_⟩
    rw [List.foldl_cons, h4, h2, mpVal_cons]
    ring

theorem tableVal_swap (l : List (Mono × α)) : mpVal v (l.map fun e => (e.2, e.1)) = tableVal v l := by
  simp [mpVal, tableVal, Function.comp_def]

theorem TableOk.swap_wf {l l' : List (Mono × α)} (hl : TableOk l) (hp : l'.Perm l) :
    MPoly.WF (l'.map fun e => (e.2, e.1)) := by
  refine ⟨?_, ?_⟩
  · intro t ht
    obtain ⟨e, he, rfl⟩ := List.mem_map.1 ht
    exact hl.2 e (hp.mem_iff.1 he)
  · rw [List.map_map]
    exact (hp.map Prod.fst).nodup_iff.2 hl.1

theorem SemiRingOps.Models.mpMul_val (h : S.Models v) (H : HashOrder) (a b : MPoly α) :
    mpVal v (S.mpMul H a b) = mpVal v a * mpVal v b := by
  have h2 := (h.mulTable H a b [] ⟨by simp, by simp⟩).2
  have hp := H.perm (S.mpMulTable H a b)
  rw [SemiRingOps.mpMul, h.mpReduce_val, mpVal_new, mpVal_perm v (hp.map _), tableVal_swap]
  rw [SemiRingOps.mpMulTable, h2]
  simp [tableVal]

theorem SemiRingOps.Models.mpMul_inner_wf (h : S.Models v) (H : HashOrder) (a b : MPoly α) :
    MPoly.WF (MPoly.new ((H.visit (S.mpMulTable H a b)).map fun e => (e.2, e.1))) :=
  MPoly.wf_perm (MPoly.new_perm _) ((h.mulTable H a b [] ⟨by simp, by simp⟩).1.swap_wf (H.perm _))

theorem SemiRingOps.Models.mpMul_wf (h : S.Models v) (H : HashOrder) (a b : MPoly α) : (S.mpMul H a b).WF :=
  S.mpReduce_wf (h.mpMul_inner_wf H a b)

theorem SemiRingOps.Models.mpMul_reduced (h : S.Models v) (H : HashOrder) (a b : MPoly α) :
    (S.mpMul H a b).Reduced v := h.mpReduce_reduced _

theorem SemiRingOps.Models.mpMul_sorted (h : S.Models v) (H : HashOrder) (a b : MPoly α) :
    (S.mpMul H a b).Sorted := S.mpReduce_sorted (h.mpMul_inner_wf H a b)

/-! ### Denoting every polynomial -/

theorem SemiRingOps.Models.exists_mp (h : S.Models v) (p : MvPolynomial ℕ R) :
    ∃ a : MPoly α, a.WF ∧ a.Reduced v ∧ a.Sorted ∧ mpVal v a = p := by
  induction p using MvPolynomial.induction_on' with
  | monomial u a =>
    obtain ⟨c, rfl⟩ := h.surj a
    obtain ⟨m, hm, rfl⟩ := exists_mono u
    exact ⟨S.mpReduce [(c, m)], S.mpReduce_wf (MPoly.single_wf hm), h.mpReduce_reduced _,
      S.mpReduce_sorted (MPoly.single_wf hm), by rw [h.mpReduce_val, mpVal_single]⟩
  | add p q hp hq =>
    obtain ⟨a, ha, _, _, rfl⟩ := hp
    obtain ⟨b, hb, _, _, rfl⟩ := hq
    exact ⟨S.mpAdd a b, h.mpAdd_wf ha hb, h.mpAdd_reduced a b, h.mpAdd_sorted ha hb, h.mpAdd_val a b⟩

end Semi

section Ring
variable {α R : Type} [CommRing R] {S : RingOps α} {v : α → R}

theorem RingOps.Models.mpNeg_val (h : S.Models v) (H : HashOrder) (a : MPoly α) :
    mpVal v ((S.multi H).neg a) = -mpVal v a := by
  induction a with
  | nil => simp [RingOps.multi, mpVal_nil]
  | cons t a ih =>
    have : (S.multi H).neg (t :: a) = (S.neg t.1, t.2) :: (S.multi H).neg a := rfl
    rw [this, mpVal_cons, ih, mpVal_cons, h.neg, map_neg]
    ring

theorem RingOps.mpNeg_wf (S : RingOps α) (H : HashOrder) {a : MPoly α} (ha : a.WF) : MPoly.WF ((S.multi H).neg a) := by
  refine ⟨?_, ?_⟩
  · intro t ht
    obtain ⟨s, hs, rfl⟩ := List.mem_map.1 ht
    exact ha.mono s hs
  · simpa [RingOps.multi, Function.comp_def] using ha.nodup

theorem RingOps.Models.mpNeg_reduced (h : S.Models v) (H : HashOrder) {a : MPoly α} (ha : a.Reduced v) :
    MPoly.Reduced v ((S.multi H).neg a) := by
  intro t ht
  obtain ⟨s, hs, rfl⟩ := List.mem_map.1 ht
  rw [h.neg, neg_ne_zero]
  exact ha s hs

end Ring

end Verif.Rings
