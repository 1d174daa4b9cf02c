import Verif.Model.GroupTrait
import Verif.Proofs.TableBy
import Verif.Proofs.Pow

/-! `generated_finite_subgroup_table`: invariant and termination. -/

namespace Verif.GroupTrait

open Verif.Table

section
variable {T : Type} [DecidableEq T] [Group T]

/-- entry of the partial table -/
def ent (m : List (List (Option Nat))) (i j : Nat) : Option Nat := (m.getD i []).getD j none

structure Inv (S : Set T) (st : GState T) : Prop where
  nodup : st.elems.Nodup
  clos : ∀ x ∈ st.elems, x ∈ Subgroup.closure S
  len : st.mul.length = st.elems.length
  row : ∀ r ∈ st.mul, r.length = st.elems.length
  ok : ∀ i j k, i < st.elems.length → j < st.elems.length → ent st.mul i j = some k →
    ∃ a b, st.elems[i]? = some a ∧ st.elems[j]? = some b ∧ st.elems[k]? = some (a * b)
  stackNodup : st.toMul.Nodup
  stack : ∀ i j, (i, j) ∈ st.toMul ↔ (i < st.elems.length ∧ j < st.elems.length ∧ ent st.mul i j = none)

theorem mem_push_fold (k : Nat) (r : List Nat) (l : List (Nat × Nat)) (p : Nat × Nat) :
    p ∈ r.foldl (fun l i => (k, i) :: (i, k) :: l) l ↔ p ∈ l ∨ ∃ i ∈ r, p = (k, i) ∨ p = (i, k) := by
  induction r generalizing l with
  | nil => simp
  | cons a t ih =>
    rw [List.foldl_cons, ih]
    simp only [List.mem_cons]
    constructor
    · rintro ((h | h | h) | ⟨i, h1, h2⟩)
      · exact Or.inr ⟨a, Or.inl rfl, Or.inl h⟩
      · exact Or.inr ⟨a, Or.inl rfl, Or.inr h⟩
      · exact Or.inl h
      · exact Or.inr ⟨i, Or.inr h1, h2⟩
    · rintro (h | ⟨i, (rfl | h1), h2⟩)
      · exact Or.inl (Or.inr (Or.inr h))
      · rcases h2 with h2 | h2
        · exact Or.inl (Or.inl h2)
        · exact Or.inl (Or.inr (Or.inl h2))
      · exact Or.inr ⟨i, h1, h2⟩

theorem length_push_fold (k : Nat) (r : List Nat) (l : List (Nat × Nat)) :
    (r.foldl (fun l i => (k, i) :: (i, k) :: l) l).length = l.length + 2 * r.length := by
  induction r generalizing l with
  | nil => simp
  | cons a t ih => rw [List.foldl_cons, ih]; simp; omega

theorem nodup_push_fold (k : Nat) (r : List Nat) (l : List (Nat × Nat)) (hr : r.Nodup) (hk : ∀ i ∈ r, i < k) (hl : l.Nodup)
    (hd : ∀ p ∈ l, ∀ i ∈ r, p ≠ (k, i) ∧ p ≠ (i, k)) : (r.foldl (fun l i => (k, i) :: (i, k) :: l) l).Nodup := by
  induction r generalizing l with
  | nil => simpa
  | cons a t ih =>
    rw [List.nodup_cons] at hr
    have ha : a < k := hk a (by simp)
    rw [List.foldl_cons]
    apply ih _ hr.2 (fun i hi => hk i (by simp [hi]))
    · rw [List.nodup_cons, List.nodup_cons]
      refine ⟨?_, fun h => (hd _ h a (by simp)).2 rfl, hl⟩
      rw [List.mem_cons, not_or]
      refine ⟨?_, fun h => (hd _ h a (by simp)).1 rfl⟩
      intro h
      have := congrArg Prod.fst h
      simp at this; omega
    · intro p hp i hi
      have hia : i ≠ a := fun h => hr.1 (h ▸ hi)
      rw [List.mem_cons, List.mem_cons] at hp
      rcases hp with rfl | rfl | hp
      · refine ⟨fun h => hia (congrArg Prod.snd h).symm, fun h => ?_⟩
        have := congrArg Prod.snd h
        simp at this; omega
      · refine ⟨fun h => ?_, fun h => hia (congrArg Prod.fst h).symm⟩
        have := congrArg Prod.fst h
        simp at this; omega
      · exact hd p hp i (by simp [hi])

theorem mem_pushPairs (k : Nat) (l : List (Nat × Nat)) (i j : Nat) :
    (i, j) ∈ pushPairs k l ↔ (i, j) ∈ l ∨ (i ≤ k ∧ j ≤ k ∧ (i = k ∨ j = k)) := by
  unfold pushPairs
  rw [List.mem_cons, mem_push_fold]
  simp only [List.mem_range, Prod.mk.injEq]
  constructor
  · rintro (⟨rfl, rfl⟩ | h | ⟨x, hx, (⟨rfl, rfl⟩ | ⟨rfl, rfl⟩)⟩)
    · exact Or.inr ⟨le_rfl, le_rfl, Or.inl rfl⟩
    · exact Or.inl h
    · exact Or.inr ⟨le_rfl, hx.le, Or.inl rfl⟩
    · exact Or.inr ⟨hx.le, le_rfl, Or.inr rfl⟩
  · rintro (h | ⟨h1, h2, (rfl | rfl)⟩)
    · exact Or.inr (Or.inl h)
    · rcases Nat.lt_or_eq_of_le h2 with h | rfl
      · exact Or.inr (Or.inr ⟨j, h, Or.inl ⟨rfl, rfl⟩⟩)
      · exact Or.inl ⟨rfl, rfl⟩
    · rcases Nat.lt_or_eq_of_le h1 with h | rfl
      · exact Or.inr (Or.inr ⟨i, h, Or.inr ⟨rfl, rfl⟩⟩)
      · exact Or.inl ⟨rfl, rfl⟩

/-- entries after growing the table by one row and column -/
theorem ent_grow (m : List (List (Option Nat))) (n : Nat) (hl : m.length = n) (hr : ∀ r ∈ m, r.length = n) (i j : Nat)
    (hi : i ≤ n) (hj : j ≤ n) :
    ent (m.map (· ++ [none]) ++ [List.replicate (n + 1) none]) i j = if i < n ∧ j < n then ent m i j else none := by
  unfold ent
  by_cases hin : i < n
  · have h1 : (m.map (· ++ [none]) ++ [List.replicate (n + 1) none]).getD i [] = (m.getD i []) ++ [none] := by
      rw [List.getD_eq_getElem _ _ (by simp; omega), List.getElem_append_left (by simp; omega), List.getElem_map,
        List.getD_eq_getElem _ _ (by omega)]
    have h2 : (m.getD i []).length = n := by
      rw [List.getD_eq_getElem _ _ (by omega)]; exact hr _ (List.getElem_mem _)
    rw [h1]
    by_cases hjn : j < n
    · rw [if_pos ⟨hin, hjn⟩, List.getD_append _ _ _ _ (by omega)]
    · rw [if_neg (fun h => hjn h.2)]
      have : j = n := by omega
      subst this
      rw [List.getD_append_right _ _ _ _ (by omega), h2]
      simp
  · have : i = n := by omega
    subst this
    rw [if_neg (fun h => hin h.1)]
    have h1 : (m.map (· ++ [none]) ++ [List.replicate (i + 1) none]).getD i [] = List.replicate (i + 1) none := by
      rw [List.getD_append_right _ _ _ _ (by simp; omega)]
      simp [hl]
    rw [h1, List.getD_eq_getElem _ _ (by simp; omega)]
    simp

/-- `add_elem!` of an element of the generated subgroup keeps the invariant. -/
theorem addElem_inv {S : Set T} {st : GState T} (h : Inv S st) (e : T) (he : e ∈ Subgroup.closure S) :
    Inv S (addElem st e).2 ∧ (addElem st e).2.elems[(addElem st e).1]? = some e ∧ st.elems <+: (addElem st e).2.elems ∧
    (∀ i j, i < st.elems.length → j < st.elems.length → ent (addElem st e).2.mul i j = ent st.mul i j) ∧
    ((addElem st e).2.toMul.length + st.elems.length * st.elems.length = st.toMul.length + (addElem st e).2.elems.length * (addElem st e).2.elems.length) ∧
    (∀ p ∈ st.toMul, p ∈ (addElem st e).2.toMul) ∧ (∀ p ∈ (addElem st e).2.toMul, p ∈ st.toMul ∨ st.elems.length ≤ p.1 ∨ st.elems.length ≤ p.2) := by
  unfold addElem
  by_cases hm : e ∈ st.elems
  · rw [if_pos hm]
    refine ⟨h, ?_, List.prefix_rfl, fun _ _ _ _ => rfl, rfl, fun _ h => h, fun _ h => Or.inl h⟩
    rw [List.getElem?_eq_getElem (List.idxOf_lt_length_of_mem hm), List.getElem_idxOf]
  · rw [if_neg hm]
    dsimp only
    set n := st.elems.length with hn
    have hgrow := ent_grow st.mul n h.len h.row
    refine ⟨⟨?_, ?_, ?_, ?_, ?_, ?_, ?_⟩, ?_, List.prefix_append _ _, ?_, ?_, ?_, ?_⟩
    · rw [List.nodup_append]
      refine ⟨h.nodup, by simp, ?_⟩
      intro a ha b hb hab
      rw [List.mem_singleton] at hb
      exact hm (hb ▸ hab ▸ ha)
    · intro x hx
      rw [List.mem_append, List.mem_singleton] at hx
      rcases hx with hx | rfl
      · exact h.clos x hx
      · exact he
    · simp [h.len]
    · intro r hr
      dsimp only at hr ⊢
      rw [List.length_append, List.length_singleton]
      rw [List.mem_append, List.mem_map, List.mem_singleton] at hr
      rcases hr with ⟨r', hr', rfl⟩ | rfl
      · simp [h.row r' hr']
      · simp
        exact hn.symm
    · intro i j k hi hj hk
      dsimp only at hi hj hk ⊢
      rw [List.length_append, List.length_singleton] at hi hj
      rw [hgrow i j (by omega) (by omega)] at hk
      split at hk
      · rename_i hij
        obtain ⟨a, b, h1, h2, h3⟩ := h.ok i j k hij.1 hij.2 hk
        refine ⟨a, b, ?_, ?_, ?_⟩
        · rw [List.getElem?_append_left hij.1]; exact h1
        · rw [List.getElem?_append_left hij.2]; exact h2
        · rw [List.getElem?_append_left (List.getElem?_eq_some_iff.1 h3).1]; exact h3
      · cases hk
    · dsimp only
      unfold pushPairs
      rw [List.nodup_cons]
      constructor
      · rw [mem_push_fold]
        rintro (hk | ⟨i, hi, (e | e)⟩)
        · have := ((h.stack _ _).1 hk).1
          omega
        · have := congrArg Prod.snd e
          rw [List.mem_range] at hi
          simp at this; omega
        · have := congrArg Prod.fst e
          rw [List.mem_range] at hi
          simp at this; omega
      · apply nodup_push_fold _ _ _ List.nodup_range (fun i hi => List.mem_range.1 hi) h.stackNodup
        intro p hp i hi
        have := (h.stack p.1 p.2).1 hp
        constructor
        · rintro rfl; simp at this; omega
        · rintro rfl; simp at this; omega
    · intro i j
      dsimp only
      rw [mem_pushPairs, h.stack, List.length_append, List.length_singleton, ← hn]
      constructor
      · rintro (⟨h1, h2, h3⟩ | ⟨h1, h2, h3⟩)
        · exact ⟨by omega, by omega, by rw [hgrow i j (by omega) (by omega), if_pos ⟨h1, h2⟩]; exact h3⟩
        · exact ⟨by omega, by omega, by rw [hgrow i j (by omega) (by omega), if_neg (by omega)]⟩
      · rintro ⟨h1, h2, h3⟩
        rw [hgrow i j (by omega) (by omega)] at h3
        split at h3
        · rename_i hij; exact Or.inl ⟨hij.1, hij.2, h3⟩
        · exact Or.inr ⟨by omega, by omega, by omega⟩
    · simp [hn]
    · intro i j hi hj
      rw [hgrow i j (by omega) (by omega), if_pos ⟨hi, hj⟩]
    · unfold pushPairs
      rw [List.length_cons, length_push_fold, List.length_range, List.length_append, List.length_singleton]
      ring_nf
      rw [← hn]
    · intro p hp
      exact (mem_pushPairs n st.toMul p.1 p.2).2 (Or.inl hp)
    · intro p hp
      rcases (mem_pushPairs n st.toMul p.1 p.2).1 hp with h | ⟨-, -, h⟩
      · exact Or.inl h
      · right; omega

theorem ent_set (m : List (List (Option Nat))) (i j k : Nat) (row : List (Option Nat)) (h1 : m[i]? = some row) (h2 : j < row.length) (i' j' : Nat) :
    ent (m.set i (row.set j (some k))) i' j' = if i' = i ∧ j' = j then some k else ent m i' j' := by
  unfold ent
  obtain ⟨hi, hrow⟩ := List.getElem?_eq_some_iff.1 h1
  rw [List.getD_eq_getElem?_getD, List.getD_eq_getElem?_getD, List.getD_eq_getElem?_getD, List.getD_eq_getElem?_getD, List.getElem?_set]
  by_cases e : i = i'
  · subst e
    rw [if_pos rfl, if_pos hi, Option.getD_some, List.getElem?_set, h1, Option.getD_some]
    by_cases e2 : j = j'
    · subst e2
      rw [if_pos rfl, if_pos h2, if_pos ⟨rfl, rfl⟩]; rfl
    · rw [if_neg e2, if_neg (fun h => e2 h.2.symm)]
  · rw [if_neg e, if_neg (fun h => e h.1.symm)]

/-- One iteration of the loop. -/
theorem mulStep_inv {S : Set T} {st : GState T} (h : Inv S st) (i j : Nat) (t : List (Nat × Nat)) (ht : st.toMul = (i, j) :: t) :
    ∃ st', mulStep (· * ·) { st with toMul := t } i j = some st' ∧ Inv S st' ∧ st.elems <+: st'.elems ∧
      st'.toMul.length + 1 + st.elems.length * st.elems.length = st.toMul.length + st'.elems.length * st'.elems.length := by
  -- pretend that the stack still holds (i,j): `addElem` does not look at it
  obtain ⟨hi, hj, hnone⟩ := (h.stack i j).1 (by rw [ht]; simp)
  obtain ⟨a, ha⟩ : ∃ a, st.elems[i]? = some a := ⟨_, List.getElem?_eq_getElem hi⟩
  obtain ⟨b, hb⟩ : ∃ b, st.elems[j]? = some b := ⟨_, List.getElem?_eq_getElem hj⟩
  have hmema : a ∈ st.elems := List.mem_of_getElem? ha
  have hmemb : b ∈ st.elems := List.mem_of_getElem? hb
  obtain ⟨i1, i2, i3, i4, i5, i6, i7⟩ := addElem_inv h (a * b) (mul_mem (h.clos a hmema) (h.clos b hmemb))
  have hnd := h.stackNodup
  rw [ht, List.nodup_cons] at hnd
  -- relation between the two runs of addElem
  have hk : (addElem { st with toMul := t } (a * b)).1 = (addElem st (a * b)).1 := by
    unfold addElem; dsimp only; split <;> rfl
  have hel : (addElem { st with toMul := t } (a * b)).2.elems = (addElem st (a * b)).2.elems := by
    unfold addElem; dsimp only; split <;> rfl
  have hmu : (addElem { st with toMul := t } (a * b)).2.mul = (addElem st (a * b)).2.mul := by
    unfold addElem; dsimp only; split <;> rfl
  have htm : (addElem { st with toMul := t } (a * b)).2.toMul.length + 1 = (addElem st (a * b)).2.toMul.length ∧
      ((addElem { st with toMul := t } (a * b)).2.toMul.Nodup) ∧
      ∀ p, p ∈ (addElem { st with toMul := t } (a * b)).2.toMul ↔ p ∈ (addElem st (a * b)).2.toMul ∧ p ≠ (i, j) := by
    have hnd' := i1.stackNodup
    unfold addElem at hnd' ⊢
    dsimp only at hnd' ⊢
    split at hnd'
    · rename_i hm
      simp only [if_pos hm]
      rw [ht]
      refine ⟨rfl, hnd.2, fun p => ?_⟩
      rw [List.mem_cons]
      constructor
      · intro hp
        exact ⟨Or.inr hp, fun e => hnd.1 (e ▸ hp)⟩
      · rintro ⟨h1 | h1, h2⟩
        · exact absurd h1 h2
        · exact h1
    · rename_i hm
      simp only [if_neg hm]
      dsimp only at hnd' ⊢
      rw [ht] at hnd' ⊢
      refine ⟨?_, ?_, ?_⟩
      · unfold pushPairs
        rw [List.length_cons, List.length_cons, length_push_fold, length_push_fold, List.length_cons]
        omega
      · unfold pushPairs at hnd' ⊢
        rw [List.nodup_cons] at hnd' ⊢
        refine ⟨fun hp => hnd'.1 ?_, ?_⟩
        · rw [mem_push_fold] at hp ⊢
          rcases hp with hp | hp
          · exact Or.inl (List.mem_cons_of_mem _ hp)
          · exact Or.inr hp
        · apply nodup_push_fold _ _ _ List.nodup_range (fun i hi => List.mem_range.1 hi) hnd.2
          intro p hp x hx
          have := (h.stack p.1 p.2).1 (by rw [ht]; exact List.mem_cons_of_mem _ hp)
          constructor
          · rintro rfl; simp at this
          · rintro rfl; simp at this
      · rintro ⟨p1, p2⟩
        rw [mem_pushPairs, mem_pushPairs, List.mem_cons]
        constructor
        · rintro (hp | hp)
          · exact ⟨Or.inl (Or.inr hp), fun e => hnd.1 (e ▸ hp)⟩
          · refine ⟨Or.inr hp, fun e => ?_⟩
            have e1 : p1 = i := congrArg Prod.fst e
            have e2 : p2 = j := congrArg Prod.snd e
            omega
        · rintro ⟨(hp | hp) | hp, hne⟩
          · exact absurd hp hne
          · exact Or.inl hp
          · exact Or.inr hp
  have hle := i3.length_le
  set st1 := (addElem st (a * b)).2 with hst1
  have hrowlen : i < st1.mul.length := by rw [i1.len]; omega
  have hrow : st1.mul[i]? = some st1.mul[i] := List.getElem?_eq_getElem hrowlen
  have hjlen : j < st1.mul[i].length := by rw [i1.row _ (List.getElem_mem _)]; omega
  have hnone1 : ent st1.mul i j = none := by rw [i4 i j hi hj]; exact hnone
  have hnone2 : st1.mul[i][j]? = some none := by
    unfold ent at hnone1
    rw [List.getD_eq_getElem _ _ hrowlen, List.getD_eq_getElem _ _ hjlen] at hnone1
    rw [List.getElem?_eq_getElem hjlen, hnone1]
  refine ⟨{ (addElem { st with toMul := t } (a * b)).2 with mul := st1.mul.set i (st1.mul[i].set j (some (addElem st (a * b)).1)) }, ?_, ?_, ?_, ?_⟩
  · unfold mulStep
    dsimp only
    rw [ha, hb]
    dsimp only
    rw [hk, hmu]
    unfold setEntry
    rw [hrow]
    dsimp only
    rw [hnone2]
    rfl
  · have hent := ent_set st1.mul i j (addElem st (a * b)).1 _ hrow hjlen
    refine ⟨?_, ?_, ?_, ?_, ?_, ?_, ?_⟩
    · dsimp only; rw [hel]; exact i1.nodup
    · dsimp only; rw [hel]; exact i1.clos
    · dsimp only; rw [hel, List.length_set]; exact i1.len
    · dsimp only
      rw [hel]
      intro r hr
      rcases List.mem_or_eq_of_mem_set hr with hr | rfl
      · exact i1.row r hr
      · rw [List.length_set]; exact i1.row _ (List.getElem_mem _)
    · dsimp only
      rw [hel]
      intro i' j' k hi' hj' hk'
      rw [hent] at hk'
      split at hk'
      · rename_i e
        rw [e.1, e.2]
        cases hk'
        have pre : ∀ {x : Nat} {y : T}, st.elems[x]? = some y → st1.elems[x]? = some y := by
          intro x y hxy
          obtain ⟨l, hl⟩ := i3
          rw [← hl, List.getElem?_append_left (List.getElem?_eq_some_iff.1 hxy).1]; exact hxy
        exact ⟨a, b, pre ha, pre hb, i2⟩
      · exact i1.ok i' j' k hi' hj' hk'
    · exact htm.2.1
    · dsimp only
      rw [hel]
      intro i' j'
      rw [htm.2.2, i1.stack, hent]
      constructor
      · rintro ⟨⟨h1, h2, h3⟩, h4⟩
        refine ⟨h1, h2, ?_⟩
        rw [if_neg (fun e => h4 (by rw [e.1, e.2]))]; exact h3
      · rintro ⟨h1, h2, h3⟩
        split at h3
        · cases h3
        · rename_i hne
          exact ⟨⟨h1, h2, h3⟩, fun e => hne ⟨congrArg Prod.fst e, congrArg Prod.snd e⟩⟩
  · dsimp only; rw [hel]; exact i3
  · dsimp only
    rw [hel]
    have := htm.1
    omega

theorem mulLoop_sound {S : Set T} : ∀ (st r : GState T), mulLoop (· * ·) st = some r → Inv S st → Inv S r ∧ r.toMul = [] ∧ st.elems <+: r.elems := by
  intro st r h
  refine mulLoop.partial_correctness (· * ·) (motive := fun st r => Inv S st → Inv S r ∧ r.toMul = [] ∧ st.elems <+: r.elems) ?_ st r h
  intro f ih st r hr hinv
  rcases ht : st.toMul with _ | ⟨⟨i, j⟩, t⟩
  · rw [ht] at hr
    cases hr
    exact ⟨hinv, ht, List.prefix_rfl⟩
  · rw [ht] at hr
    dsimp only at hr
    obtain ⟨st', h1, h2, h3, -⟩ := mulStep_inv hinv i j t ht
    rw [h1] at hr
    obtain ⟨r1, r2, r3⟩ := ih st' r hr h2
    exact ⟨r1, r2, h3.trans r3⟩

omit [DecidableEq T] in
theorem Inv.length_le {S : Set T} (hfin : (Subgroup.closure S : Set T).Finite) {st : GState T} (h : Inv S st) : st.elems.length ≤ hfin.toFinset.card := by
  classical
  rw [← List.toFinset_card_of_nodup h.nodup]
  apply Finset.card_le_card
  intro x hx
  rw [Set.Finite.mem_toFinset]
  exact h.clos x (List.mem_toFinset.1 hx)

theorem mulLoop_total {S : Set T} (hfin : (Subgroup.closure S : Set T).Finite) : ∀ (k : Nat) (st : GState T), Inv S st →
    st.toMul.length + (hfin.toFinset.card * hfin.toFinset.card - st.elems.length * st.elems.length) ≤ k → ∃ r, mulLoop (· * ·) st = some r := by
  intro k
  induction k with
  | zero =>
    intro st hinv hk
    have : st.toMul = [] := List.length_eq_zero_iff.1 (by omega)
    refine ⟨st, ?_⟩
    rw [mulLoop, this]
  | succ k ih =>
    intro st hinv hk
    rw [mulLoop]
    rcases ht : st.toMul with _ | ⟨⟨i, j⟩, t⟩
    · exact ⟨st, rfl⟩
    · obtain ⟨st', h1, h2, h3, h4⟩ := mulStep_inv hinv i j t ht
      dsimp only
      rw [h1]
      apply ih st' h2
      have a1 := hinv.length_le hfin
      have a2 := h2.length_le hfin
      have b1 := Nat.mul_le_mul a1 a1
      have b2 := Nat.mul_le_mul a2 a2
      omega

theorem gens_inv {S : Set T} (gens : List T) (hg : ∀ g ∈ gens, g ∈ Subgroup.closure S) : ∀ (st : GState T), Inv S st →
    Inv S (gens.foldl (fun st g => (addElem st g).2) st) ∧ st.elems <+: (gens.foldl (fun st g => (addElem st g).2) st).elems ∧
    ∀ g ∈ gens, g ∈ (gens.foldl (fun st g => (addElem st g).2) st).elems := by
  induction gens with
  | nil => intro st h; exact ⟨h, List.prefix_rfl, by simp⟩
  | cons a t ih =>
    intro st h
    obtain ⟨h1, h2, h3, -⟩ := addElem_inv h a (hg a (by simp))
    obtain ⟨i1, i2, i3⟩ := ih (fun g hg' => hg g (by simp [hg'])) _ h1
    rw [List.foldl_cons]
    refine ⟨i1, h3.trans i2, ?_⟩
    intro g hg'
    rcases List.mem_cons.1 hg' with rfl | hg'
    · exact i2.subset (List.mem_of_getElem? h2)
    · exact i3 g hg'

theorem inv_empty (S : Set T) : Inv S (⟨[], [], []⟩ : GState T) := by
  refine ⟨by simp, by simp, rfl, by simp, ?_, by simp, by simp⟩
  intro i j k hi
  simp at hi

theorem idxOf?_mem (l : List T) (x : T) (h : x ∈ l) : l.idxOf? x = some (l.idxOf x) := by
  induction l with
  | nil => simp at h
  | cons a t ih =>
    rw [List.idxOf?_cons]
    by_cases e : a = x
    · subst e; simp
    · rw [List.idxOf_cons_ne _ e, ih (by rcases List.mem_cons.1 h with h | h; exact absurd h.symm e; exact h)]
      simp [e]

/-- The result of the whole function, when the loop ends in state `r`. -/
theorem finish_spec {S : Set T} (r : GState T) (h : Inv S r) (ht : r.toMul = []) (h0 : r.elems[0]? = some 1) (hS : ∀ g ∈ S, g ∈ r.elems) :
    (∀ x, x ∈ r.elems ↔ x ∈ Subgroup.closure S) ∧ ∃ G, finish (·⁻¹) r = some (G, r.elems) ∧ G.n = r.elems.length ∧ G.ident = 0 ∧
      Models G (fun k => r.elems.getD k 1) := by
  have hall : ∀ i j, i < r.elems.length → j < r.elems.length → ∃ k, ent r.mul i j = some k := by
    intro i j hi hj
    rcases he : ent r.mul i j with _ | k
    · have := (h.stack i j).2 ⟨hi, hj, he⟩
      rw [ht] at this
      simp at this
    · exact ⟨k, rfl⟩
  have hmul : ∀ a ∈ r.elems, ∀ b ∈ r.elems, a * b ∈ r.elems := by
    intro a ha b hb
    obtain ⟨i, hi, rfl⟩ := List.getElem_of_mem ha
    obtain ⟨j, hj, rfl⟩ := List.getElem_of_mem hb
    obtain ⟨k, hk⟩ := hall i j hi hj
    obtain ⟨a, b, h1, h2, h3⟩ := h.ok i j k hi hj hk
    rw [List.getElem?_eq_getElem hi] at h1
    rw [List.getElem?_eq_getElem hj] at h2
    cases h1; cases h2
    exact List.mem_of_getElem? h3
  have h1 : (1 : T) ∈ r.elems := List.mem_of_getElem? h0
  have hclos : ∀ x, x ∈ r.elems ↔ x ∈ Subgroup.closure S := by
    intro x
    refine ⟨h.clos x, ?_⟩
    exact closure_subset_of_right_closed S {x | x ∈ r.elems} (List.finite_toSet r.elems) h1 (fun x hx g hg => hmul x hx g (hS g hg)) x
  refine ⟨hclos, ?_⟩
  have hinv : ∀ x ∈ r.elems, x⁻¹ ∈ r.elems := fun x hx => (hclos _).2 (inv_mem ((hclos x).1 hx))
  have hml : (r.mul.mapM fun row => row.mapM id) = some (r.mul.map fun row => row.map fun e => e.getD 0) := by
    apply mapM_some_of'
    intro row hrow
    apply mapM_some_of'
    intro e he
    obtain ⟨i, hi, rfl⟩ := List.getElem_of_mem hrow
    obtain ⟨j, hj, rfl⟩ := List.getElem_of_mem he
    have hj' : j < r.elems.length := by rw [← h.row _ (List.getElem_mem hi)]; exact hj
    obtain ⟨k, hk⟩ := hall i j (by rw [← h.len]; exact hi) hj'
    unfold ent at hk
    rw [List.getD_eq_getElem _ _ hi, List.getD_eq_getElem _ _ hj] at hk
    rw [hk]; rfl
  have hiv : (r.elems.mapM fun x => r.elems.idxOf? x⁻¹) = some (r.elems.map fun x => r.elems.idxOf x⁻¹) := by
    apply mapM_some_of'
    intro x hx
    exact idxOf?_mem _ _ (hinv x hx)
  set G : Grp := { n := r.elems.length, ident := 0, inv := r.elems.map fun x => r.elems.idxOf x⁻¹, mul := r.mul.map fun row => row.map fun e => e.getD 0 } with hG
  have hGm : ∀ i j, i < r.elems.length → j < r.elems.length → G.m i j < r.elems.length ∧ r.elems.getD (G.m i j) 1 = r.elems.getD i 1 * r.elems.getD j 1 := by
    intro i j hi hj
    obtain ⟨k, hk⟩ := hall i j hi hj
    have e : G.m i j = k := by
      unfold Grp.m
      rw [hG]
      dsimp only
      have hi' : i < r.mul.length := by rw [h.len]; exact hi
      have hj' : j < r.mul[i].length := by rw [h.row _ (List.getElem_mem _)]; exact hj
      rw [List.getD_eq_getElem (l := List.map _ _) _ (by simpa using hi'), List.getElem_map, List.getD_eq_getElem (l := List.map _ _) _ (by simpa using hj'), List.getElem_map]
      unfold ent at hk
      rw [List.getD_eq_getElem _ _ hi', List.getD_eq_getElem _ _ hj'] at hk
      rw [hk]; rfl
    obtain ⟨a, b, h1, h2, h3⟩ := h.ok i j k hi hj hk
    rw [e]
    refine ⟨(List.getElem?_eq_some_iff.1 h3).1, ?_⟩
    rw [List.getD_eq_getElem?_getD, List.getD_eq_getElem?_getD, List.getD_eq_getElem?_getD, h1, h2, h3]; rfl
  have hGi : ∀ i, i < r.elems.length → G.i i < r.elems.length ∧ r.elems.getD (G.i i) 1 = (r.elems.getD i 1)⁻¹ := by
    intro i hi
    have e : G.i i = r.elems.idxOf (r.elems[i])⁻¹ := by
      unfold Grp.i
      rw [hG]
      dsimp only
      rw [List.getD_eq_getElem (l := List.map _ _) _ (by simpa using hi), List.getElem_map]
    have hm := hinv _ (List.getElem_mem hi)
    have hlt := List.idxOf_lt_length_of_mem hm
    rw [e]
    refine ⟨hlt, ?_⟩
    rw [List.getD_eq_getElem _ _ hlt, List.getElem_idxOf, List.getD_eq_getElem _ _ hi]
  have hpos : 0 < r.elems.length := (List.getElem?_eq_some_iff.1 h0).1
  have hmod : Models G (fun k => r.elems.getD k 1) := by
    refine ⟨?_, hpos, ?_, ?_, ?_, ?_, fun x hx => (hGi x hx).1, fun x hx => (hGi x hx).2, fun x y hx hy => (hGm x y hx hy).1, fun x y hx hy => (hGm x y hx hy).2⟩
    · intro x y hx hy hxy
      rw [List.getD_eq_getElem _ _ hx, List.getD_eq_getElem _ _ hy] at hxy
      exact (h.nodup.getElem_inj_iff).1 hxy
    · change r.elems.getD 0 1 = 1
      rw [List.getD_eq_getElem?_getD, h0]; rfl
    · simp [hG]
    · simp [hG, h.len]
    · intro row hrow
      obtain ⟨row', h1, rfl⟩ := List.mem_map.1 hrow
      simp [hG, h.row _ h1]
  refine ⟨G, ?_, rfl, rfl, hmod⟩
  unfold finish
  rw [hml, hiv]
  obtain ⟨v, v1, v2⟩ := checkCore_spec G
  have : v = true := v2.2 hmod.isGroup
  rw [this] at v1
  change (if G.checkCore = some true then some (G, r.elems) else none) = _
  rw [if_pos v1]

theorem generatedTable_sound (gens : List T) (G : Grp) (elems : List T) (h : generatedTable 1 (·⁻¹) (· * ·) gens = some (G, elems)) :
    elems.Nodup ∧ (∀ x, x ∈ elems ↔ x ∈ Subgroup.closure {g | g ∈ gens}) ∧ G.n = elems.length ∧ G.ident = 0 ∧ elems[0]? = some 1 ∧
      Models G (fun k => elems.getD k 1) := by
  unfold generatedTable at h
  set S : Set T := {g | g ∈ gens}
  obtain ⟨a1, a2, a3, -⟩ := addElem_inv (inv_empty S) 1 (one_mem _)
  have a4 : (addElem (⟨[], [], []⟩ : GState T) 1).1 = 0 := rfl
  rw [a4] at a2
  obtain ⟨b1, b2, b3⟩ := gens_inv gens (fun g hg => Subgroup.subset_closure hg) _ a1
  dsimp only at h
  rcases hl : mulLoop (· * ·) (gens.foldl (fun st g => (addElem st g).2) (addElem (⟨[], [], []⟩ : GState T) 1).2) with _ | r
  · rw [hl] at h; cases h
  · rw [hl] at h
    obtain ⟨c1, c2, c3⟩ := mulLoop_sound _ r hl b1
    have h0 : r.elems[0]? = some 1 := by
      obtain ⟨l, hl⟩ := b2.trans c3
      rw [← hl, List.getElem?_append_left (List.getElem?_eq_some_iff.1 a2).1]; exact a2
    obtain ⟨d1, G', d2, d3, d4, d5⟩ := finish_spec r c1 c2 h0 (fun g hg => c3.subset (b3 g hg))
    rw [show (do let st ← some r; finish (·⁻¹) st) = finish (·⁻¹) r from rfl, d2] at h
    cases h
    exact ⟨c1.nodup, d1, d3, d4, h0, d5⟩

theorem generatedTable_total (gens : List T) (hfin : (Subgroup.closure {g | g ∈ gens} : Set T).Finite) :
    ∃ r, generatedTable 1 (·⁻¹) (· * ·) gens = some r := by
  set S : Set T := {g | g ∈ gens}
  obtain ⟨a1, a2, a3, -⟩ := addElem_inv (inv_empty S) 1 (one_mem _)
  have a4 : (addElem (⟨[], [], []⟩ : GState T) 1).1 = 0 := rfl
  rw [a4] at a2
  obtain ⟨b1, b2, b3⟩ := gens_inv gens (fun g hg => Subgroup.subset_closure hg) _ a1
  obtain ⟨r, hl⟩ := mulLoop_total hfin _ _ b1 le_rfl
  obtain ⟨c1, c2, c3⟩ := mulLoop_sound _ r hl b1
  have h0 : r.elems[0]? = some 1 := by
    obtain ⟨l, hl⟩ := b2.trans c3
    rw [← hl, List.getElem?_append_left (List.getElem?_eq_some_iff.1 a2).1]; exact a2
  obtain ⟨d1, G', d2, -⟩ := finish_spec r c1 c2 h0 (fun g hg => c3.subset (b3 g hg))
  refine ⟨(G', r.elems), ?_⟩
  unfold generatedTable
  dsimp only
  rw [hl]
  exact d2

end

end Verif.GroupTrait
