import Verif.Model.ConvexHull
import Verif.Proofs.GeometrySimplex
import Mathlib.Data.List.Nodup
import Mathlib.Data.List.Count
import Mathlib.Algebra.Ring.Parity
import Mathlib.Tactic.SplitIfs

/-! # The hash sets of the convex hull code -/

namespace Verif.Geometry

section
variable {β γ δ : Type} [DecidableEq δ] {eq : β → β → Option Bool} {P : β → Prop} {key : β → δ}
  (heq : ∀ x y, P x → P y → eq x y = some (decide (key x = key y)))
include heq

theorem hashHas_eq {x : β} (hx : P x) {m : List β} (hm : ∀ y ∈ m, P y) : hashHas eq x m = some (decide (key x ∈ m.map key)) := by
  induction m with
  | nil => simp [hashHas]
  | cons y ys ih =>
    have h1 := ih fun z hz => hm z (List.mem_cons_of_mem _ hz)
    simp only [hashHas, heq x y hx (hm y (by simp)), Option.bind_eq_bind, Option.bind_some, h1, List.map_cons, List.mem_cons]
    by_cases e : key x = key y <;> simp [e]

theorem hashInsert_eq {x : β} (hx : P x) {m : List β} (hm : ∀ y ∈ m, P y) :
    hashInsert eq m x = some (if key x ∈ m.map key then m else m ++ [x]) := by
  unfold hashInsert
  simp only [hashHas_eq heq hx hm, Option.bind_eq_bind, Option.bind_some, decide_eq_true_eq]

theorem hashInsert_fold {l m : List β} (hl : ∀ y ∈ l, P y) (hm : ∀ y ∈ m, P y) (hn : (m.map key).Nodup) :
    ∃ r, l.foldlM (hashInsert eq) m = some r ∧ (∀ y ∈ r, y ∈ m ∨ y ∈ l) ∧ (r.map key).Nodup ∧
      (∀ k, k ∈ r.map key ↔ k ∈ m.map key ∨ k ∈ l.map key) := by
  induction l generalizing m with
  | nil => exact ⟨m, rfl, fun y hy => .inl hy, hn, fun k => by simp⟩
  | cons x l ih =>
    have hx := hl x (by simp)
    rw [List.foldlM_cons, hashInsert_eq heq hx hm]
    simp only [Option.bind_eq_bind, Option.bind_some]
    by_cases hk : key x ∈ m.map key
    · rw [if_pos hk]
      obtain ⟨r, r1, r2, r3, r4⟩ := ih (fun y hy => hl y (List.mem_cons_of_mem _ hy)) hm hn
      refine ⟨r, r1, fun y hy => (r2 y hy).imp_right (List.mem_cons_of_mem _), r3, fun k => ?_⟩
      rw [r4, List.map_cons, List.mem_cons]
      constructor
      · rintro (h | h)
        · exact .inl h
        · exact .inr (.inr h)
      · rintro (h | rfl | h)
        · exact .inl h
        · exact .inl hk
        · exact .inr h
    · rw [if_neg hk]
      obtain ⟨r, r1, r2, r3, r4⟩ := ih (m := m ++ [x]) (fun y hy => hl y (List.mem_cons_of_mem _ hy))
        (fun y hy => by
          rcases List.mem_append.1 hy with h | h
          · exact hm y h
          · rw [List.mem_singleton.1 h]; exact hx)
        (by
          rw [List.map_append, List.map_singleton, List.nodup_append]
          refine ⟨hn, by simp, ?_⟩
          intro a ha b hb e
          rw [List.mem_singleton] at hb
          exact hk (hb ▸ e ▸ ha))
      refine ⟨r, r1, fun y hy => ?_, r3, fun k => ?_⟩
      · rcases r2 y hy with h | h
        · rcases List.mem_append.1 h with h | h
          · exact .inl h
          · rw [List.mem_singleton.1 h]; exact .inr (by simp)
        · exact .inr (List.mem_cons_of_mem _ h)
      · simp only [r4, List.map_append, List.mem_append, List.map_cons, List.mem_cons, List.map_nil, List.not_mem_nil]
        tauto

theorem hashInsert_set {l : List β} (hl : ∀ y ∈ l, P y) :
    ∃ r, l.foldlM (hashInsert eq) [] = some r ∧ (∀ y ∈ r, y ∈ l) ∧ (r.map key).Nodup ∧ (∀ k, k ∈ r.map key ↔ k ∈ l.map key) := by
  obtain ⟨r, r1, r2, r3, r4⟩ := hashInsert_fold heq hl (m := []) (by simp) (by simp)
  exact ⟨r, r1, fun y hy => (r2 y hy).resolve_left (by simp), r3, fun k => by rw [r4]; simp⟩

theorem hashRemove_eq {x : β} (hx : P x) {m : List (β × γ)} (hm : ∀ e ∈ m, P e.1) :
    hashRemove eq x m = some (m.filter fun e => key e.1 ≠ key x) := by
  induction m with
  | nil => rfl
  | cons e es ih =>
    have h1 := ih fun z hz => hm z (List.mem_cons_of_mem _ hz)
    simp only [hashRemove, heq x e.1 hx (hm e (by simp)), Option.bind_eq_bind, Option.bind_some, h1, List.filter_cons]
    by_cases hk : key x = key e.1
    · simp [hk]
    · have hk' : key e.1 ≠ key x := Ne.symm hk
      simp [hk, hk']

theorem hashToggle_eq {e : β × γ} (he : P e.1) {m : List (β × γ)} (hm : ∀ e ∈ m, P e.1) :
    hashToggle eq m e = some (if key e.1 ∈ m.map (fun e => key e.1) then m.filter (fun a => key a.1 ≠ key e.1) else m ++ [e]) := by
  unfold hashToggle
  rw [hashHas_eq heq he (by intro y hy; obtain ⟨a, ha, rfl⟩ := List.mem_map.1 hy; exact hm a ha)]
  simp only [Option.bind_eq_bind, Option.bind_some, decide_eq_true_eq, List.map_map, hashRemove_eq heq he hm]
  change (if key e.1 ∈ m.map (fun e => key e.1) then _ else _) = _
  split_ifs <;> rfl

theorem hashToggle_fold {l m : List (β × γ)} (hl : ∀ e ∈ l, P e.1) (hm : ∀ e ∈ m, P e.1) (hn : (m.map fun e => key e.1).Nodup) :
    ∃ r, l.foldlM (hashToggle eq) m = some r ∧ (∀ e ∈ r, e ∈ m ∨ e ∈ l) ∧ (r.map fun e => key e.1).Nodup ∧
      (∀ k, k ∈ r.map (fun e => key e.1) ↔ Odd ((m.map fun e => key e.1).count k + (l.map fun e => key e.1).count k)) := by
  induction l generalizing m with
  | nil =>
    refine ⟨m, rfl, fun y hy => .inl hy, hn, fun k => ?_⟩
    simp only [List.map_nil, List.count_nil, add_zero]
    by_cases hk : k ∈ m.map fun e => key e.1
    · rw [List.count_eq_one_of_mem hn hk]; simp [hk]
    · rw [List.count_eq_zero_of_not_mem hk]; simp [hk]
  | cons x l ih =>
    have hx := hl x (by simp)
    rw [List.foldlM_cons, hashToggle_eq heq hx hm]
    simp only [Option.bind_eq_bind, Option.bind_some]
    by_cases hk : key x.1 ∈ m.map fun e => key e.1
    · rw [if_pos hk]
      have hsub : (m.filter fun a => key a.1 ≠ key x.1).Sublist m := List.filter_sublist
      obtain ⟨r, r1, r2, r3, r4⟩ := ih (m := m.filter fun a => key a.1 ≠ key x.1) (fun y hy => hl y (List.mem_cons_of_mem _ hy))
        (fun y hy => hm y (hsub.subset hy)) (hn.sublist (hsub.map _))
      refine ⟨r, r1, fun y hy => ?_, r3, fun k => ?_⟩
      · rcases r2 y hy with h | h
        · exact .inl (hsub.subset h)
        · exact .inr (List.mem_cons_of_mem _ h)
      · rw [r4, List.map_cons, List.count_cons]
        have hc : ((m.filter fun a => key a.1 ≠ key x.1).map fun e => key e.1).count k =
            if k = key x.1 then 0 else (m.map fun e => key e.1).count k := by
          split_ifs with e
          · apply List.count_eq_zero_of_not_mem
            intro hm'
            obtain ⟨a, ha, hak⟩ := List.mem_map.1 hm'
            have := (List.mem_filter.1 ha).2
            simp only [decide_eq_true_eq] at this
            exact this (hak.trans e)
          · rw [List.count_eq_countP, List.countP_map, List.countP_filter, List.count_eq_countP, List.countP_map]
            apply List.countP_congr
            intro a _
            simp only [Function.comp, Bool.and_eq_true, beq_iff_eq, decide_eq_true_eq]
            constructor
            · exact fun h => h.1
            · exact fun h => ⟨h, fun h2 => e (h.symm.trans h2)⟩
        rw [hc]
        by_cases e : k = key x.1
        · subst e
          rw [if_pos rfl, List.count_eq_one_of_mem hn hk]
          simp only [beq_self_eq_true, if_true, zero_add]
          constructor
          · rintro ⟨c, hc⟩; exact ⟨c + 1, by omega⟩
          · rintro ⟨c, hc⟩; exact ⟨c - 1, by omega⟩
        · rw [if_neg e]
          have : ¬ (key x.1 == k) = true := by simpa using Ne.symm e
          rw [if_neg this, add_zero]
    · rw [if_neg hk]
      obtain ⟨r, r1, r2, r3, r4⟩ := ih (m := m ++ [x]) (fun y hy => hl y (List.mem_cons_of_mem _ hy))
        (fun y hy => by
          rcases List.mem_append.1 hy with h | h
          · exact hm y h
          · rw [List.mem_singleton.1 h]; exact hx)
        (by
          rw [List.map_append, List.map_singleton, List.nodup_append]
          refine ⟨hn, by simp, ?_⟩
          intro a ha b hb e
          rw [List.mem_singleton] at hb
          exact hk (hb ▸ e ▸ ha))
      refine ⟨r, r1, fun y hy => ?_, r3, fun k => ?_⟩
      · rcases r2 y hy with h | h
        · rcases List.mem_append.1 h with h | h
          · exact .inl h
          · rw [List.mem_singleton.1 h]; exact .inr (by simp)
        · exact .inr (List.mem_cons_of_mem _ h)
      · simp only [r4, List.map_append, List.count_append, List.map_cons, List.count_cons, List.map_nil, List.count_nil, zero_add]
        rw [add_assoc, add_comm (ite _ _ _)]

theorem hashToggle_set {l : List (β × γ)} (hl : ∀ e ∈ l, P e.1) :
    ∃ r, l.foldlM (hashToggle eq) [] = some r ∧ (∀ e ∈ r, e ∈ l) ∧ (r.map fun e => key e.1).Nodup ∧
      (∀ k, k ∈ r.map (fun e => key e.1) ↔ Odd ((l.map fun e => key e.1).count k)) := by
  obtain ⟨r, r1, r2, r3, r4⟩ := hashToggle_fold heq hl (m := []) (by simp) (by simp)
  exact ⟨r, r1, fun y hy => (r2 y hy).resolve_left (by simp), r3, fun k => by rw [r4]; simp⟩

theorem hashCount_step {m : List (β × Nat)} {c : δ → Nat} (hm : ∀ e ∈ m, P e.1 ∧ e.2 = c (key e.1)) (hc : ∀ k, k ∉ m.map (fun e => key e.1) → c k = 0)
    (hn : (m.map fun e => key e.1).Nodup) {x : β} (hx : P x) :
    ∃ r, hashCount eq m x = some r ∧ (∀ e ∈ r, P e.1 ∧ e.2 = c (key e.1) + if key e.1 = key x then 1 else 0) ∧
      (∀ k, k ∈ r.map (fun e => key e.1) ↔ k ∈ m.map (fun e => key e.1) ∨ k = key x) ∧ (r.map fun e => key e.1).Nodup := by
  induction m generalizing c with
  | nil =>
    refine ⟨[(x, 1)], rfl, ?_, by simp, by simp⟩
    intro e he
    rw [List.mem_singleton.1 he]
    exact ⟨hx, by rw [hc _ (by simp)]; simp⟩
  | cons e es ih =>
    have he := hm e (by simp)
    simp only [hashCount, heq x e.1 hx he.1, Option.bind_eq_bind, Option.bind_some]
    rw [List.map_cons, List.nodup_cons] at hn
    by_cases hk : key x = key e.1
    · rw [if_pos (by simpa using hk)]
      refine ⟨_, rfl, ?_, ?_, ?_⟩
      · intro a ha
        rcases List.mem_cons.1 ha with rfl | ha
        · exact ⟨he.1, by simp [he.2, hk]⟩
        · have h1 := hm a (List.mem_cons_of_mem _ ha)
          refine ⟨h1.1, ?_⟩
          rw [if_neg, h1.2, add_zero]
          intro e'
          exact hn.1 (hk ▸ e' ▸ List.mem_map.2 ⟨a, ha, rfl⟩)
      · intro k
        simp only [List.map_cons, List.mem_cons, hk]
        tauto
      · simpa using hn
    · rw [if_neg (by simpa using hk)]
      obtain ⟨r, r1, r2, r3, r4⟩ := ih (c := fun k => if k = key e.1 then 0 else c k) (by
          intro a ha
          have h1 := hm a (List.mem_cons_of_mem _ ha)
          refine ⟨h1.1, ?_⟩
          rw [if_neg, h1.2]
          intro e'
          exact hn.1 (e' ▸ List.mem_map.2 ⟨a, ha, rfl⟩)) (by
          intro k hk'
          by_cases e' : k = key e.1
          · rw [if_pos e']
          · rw [if_neg e']
            exact hc k (by rw [List.map_cons, List.mem_cons]; tauto)) hn.2
      have hne : key e.1 ∉ r.map fun e => key e.1 := by
        rw [r3]
        rintro (h | h)
        · exact hn.1 h
        · exact hk h.symm
      refine ⟨e :: r, by rw [r1]; rfl, ?_, ?_, ?_⟩
      · intro a ha
        rcases List.mem_cons.1 ha with rfl | ha
        · exact ⟨he.1, by rw [if_neg (Ne.symm hk), he.2, add_zero]⟩
        · have h1 := r2 a ha
          refine ⟨h1.1, ?_⟩
          rw [h1.2, if_neg]
          intro e'
          exact hne (e' ▸ List.mem_map.2 ⟨a, ha, rfl⟩)
      · intro k
        rw [List.map_cons, List.mem_cons, r3, List.map_cons, List.mem_cons]
        tauto
      · rw [List.map_cons, List.nodup_cons]
        exact ⟨hne, r4⟩

theorem hashCount_fold {l : List β} {m : List (β × Nat)} {c : δ → Nat} (hl : ∀ y ∈ l, P y) (hm : ∀ e ∈ m, P e.1 ∧ e.2 = c (key e.1))
    (hc : ∀ k, k ∉ m.map (fun e => key e.1) → c k = 0) (hn : (m.map fun e => key e.1).Nodup) :
    ∃ r, l.foldlM (hashCount eq) m = some r ∧ (∀ e ∈ r, e.2 = c (key e.1) + (l.map key).count (key e.1)) ∧
      (∀ k, k ∈ r.map (fun e => key e.1) ↔ k ∈ m.map (fun e => key e.1) ∨ k ∈ l.map key) := by
  induction l generalizing m c with
  | nil => exact ⟨m, rfl, fun e he => by simpa using (hm e he).2, fun k => by simp⟩
  | cons x l ih =>
    obtain ⟨r, r1, r2, r3, r4⟩ := hashCount_step heq hm hc hn (hl x (by simp))
    obtain ⟨r', s1, s2, s3⟩ := ih (m := r) (c := fun k => c k + if k = key x then 1 else 0) (fun y hy => hl y (List.mem_cons_of_mem _ hy)) r2 (by
      intro k hk
      rw [r3] at hk
      push Not at hk
      rw [hc k hk.1, if_neg hk.2]) r4
    refine ⟨r', by rw [List.foldlM_cons, r1]; exact s1, ?_, ?_⟩
    · intro e he
      rw [s2 e he, List.map_cons, List.count_cons, add_assoc, add_comm (ite _ _ _)]
      congr 2
      by_cases hk : key e.1 = key x
      · simp [hk]
      · have : ¬ key x = key e.1 := Ne.symm hk
        simp [hk, this]
    · intro k
      rw [s3, r3, List.map_cons, List.mem_cons]
      tauto

theorem hashCount_set {l : List β} (hl : ∀ y ∈ l, P y) :
    ∃ r, l.foldlM (hashCount eq) [] = some r ∧ (∀ e ∈ r, e.2 = (l.map key).count (key e.1) ∧ key e.1 ∈ l.map key) := by
  obtain ⟨r, r1, r2, r3⟩ := hashCount_fold heq (m := []) (c := fun _ => 0) hl (by simp) (by simp) (by simp)
  refine ⟨r, r1, fun e he => ⟨by simpa using r2 e he, ?_⟩⟩
  have := (r3 (key e.1)).1 (List.mem_map.2 ⟨e, he, rfl⟩)
  simpa using this

theorem hashSetEq_true {m n : List β} (hm : ∀ y ∈ m, P y) (hn : ∀ y ∈ n, P y) (hmn : (m.map key).Nodup) (hnn : (n.map key).Nodup)
    (he : ∀ k, k ∈ m.map key ↔ k ∈ n.map key) : hashSetEq eq m n = some true := by
  unfold hashSetEq
  have h1 : (m.mapM fun x => hashHas eq x n) = some (m.map fun _ => true) := by
    apply Verif.Rings.mapM_eq_map
    intro x hx
    rw [hashHas_eq heq (hm x hx) hn]
    simp only [Option.some.injEq, decide_eq_true_eq]
    exact (he _).1 (List.mem_map_of_mem hx)
  have h2 : m.length = n.length := by
    have := (List.perm_ext_iff_of_nodup hmn hnn).2 he
    simpa using this.length_eq
  simp [h1, h2]

end

end Verif.Geometry
