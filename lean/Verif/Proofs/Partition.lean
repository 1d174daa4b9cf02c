import Verif.Model.Sets
import Mathlib.Data.List.Basic
import Mathlib.Data.List.Lex
import Mathlib.Data.List.Sort

namespace Verif.Sets

/-- reference enumeration -/
def parts (P : Nat → Bool) : Nat → Nat → Nat → List (List Nat)
  | 0, n, _ => if n = 0 then [[]] else []
  | x + 1, n, f => (List.range' f (n + 1 - f)).flatMap fun a =>
      if P a then (parts P x (n - a) a).map (a :: ·) else []

theorem mem_parts (P : Nat → Bool) (x n f : Nat) (hf : 1 ≤ f) (l : List Nat) :
    l ∈ parts P x n f ↔ l.length = x ∧ l.sum = n ∧ l.Pairwise (· ≤ ·) ∧ (∀ a ∈ l, f ≤ a) ∧ ∀ a ∈ l, P a = true := by
  induction x generalizing n f l with
  | zero =>
    simp only [parts]
    split
    · rename_i h; subst h
      simp only [List.mem_singleton]
      constructor
      · rintro rfl; simp
      · rintro ⟨h, -⟩; exact List.length_eq_zero_iff.1 h
    · rename_i h
      simp only [List.not_mem_nil, false_iff]
      rintro ⟨h1, h2, -⟩
      rw [List.length_eq_zero_iff.1 h1] at h2
      exact h h2.symm
  | succ x ih =>
    simp only [parts, List.mem_flatMap, List.mem_range'_1]
    constructor
    · rintro ⟨a, ⟨ha1, ha2⟩, hl⟩
      split at hl
      · rename_i hP
        rw [List.mem_map] at hl
        obtain ⟨t, ht, rfl⟩ := hl
        rw [ih (n - a) a (by omega) t] at ht
        obtain ⟨h1, h2, h3, h4, h5⟩ := ht
        refine ⟨by simp [h1], by simp [h2]; omega, ?_, ?_, ?_⟩
        · exact List.pairwise_cons.2 ⟨h4, h3⟩
        · intro b hb
          rcases List.mem_cons.1 hb with rfl | hb
          · exact ha1
          · exact le_trans ha1 (h4 b hb)
        · intro b hb
          rcases List.mem_cons.1 hb with rfl | hb
          · exact hP
          · exact h5 b hb
      · simp at hl
    · rintro ⟨h1, h2, h3, h4, h5⟩
      cases l with
      | nil => simp at h1
      | cons a t =>
        simp only [List.sum_cons, List.length_cons] at h1 h2
        rw [List.pairwise_cons] at h3
        refine ⟨a, ⟨h4 a (by simp), by have := h4 a (by simp); omega⟩, ?_⟩
        rw [if_pos (h5 a (by simp)), List.mem_map]
        refine ⟨t, ?_, rfl⟩
        rw [ih _ a (by have := h4 a (by simp); omega)]
        exact ⟨by omega, by omega, h3.2, h3.1, fun b hb => h5 b (by simp [hb])⟩

theorem parts_sorted (P : Nat → Bool) (x n f : Nat) : (parts P x n f).Pairwise (List.Lex (· < ·)) := by
  induction x generalizing n f with
  | zero => simp only [parts]; split <;> simp
  | succ x ih =>
    simp only [parts]
    rw [List.pairwise_flatMap]
    constructor
    · intro a _
      split
      · rw [List.pairwise_map]
        exact (ih (n - a) a).imp fun h => List.Lex.cons h
      · simp
    · refine (List.pairwise_lt_range' (s := f) (n := n + 1 - f)).imp ?_
      intro a b hab l hl m hm
      split at hl <;> split at hm <;> simp only [List.mem_map, List.not_mem_nil] at hl hm
      obtain ⟨t, _, rfl⟩ := hl
      obtain ⟨u, _, rfl⟩ := hm
      exact List.Lex.rel hab

theorem parts_empty_of_lt (P : Nat → Bool) (x n f : Nat) (hf : 1 ≤ f) (h : n < x) : parts P x n f = [] := by
  rw [List.eq_nil_iff_forall_not_mem]
  intro l hl
  rw [mem_parts P x n f hf] at hl
  obtain ⟨h1, h2, h3, h4, h5⟩ := hl
  have : l.length * 1 ≤ l.sum := by
    have hh : ∀ l : List Nat, (∀ a ∈ l, 1 ≤ a) → l.length ≤ l.sum := by
      intro l
      induction l with
      | nil => simp
      | cons a t ih => intro h; simp; have := h a (by simp); have := ih (fun b hb => h b (by simp [hb])); omega
    have := hh l (fun a ha => le_trans hf (h4 a ha))
    omega
  omega

theorem parts_step (P : Nat → Bool) (x n f : Nat) (h : f ≤ n) :
    parts P (x + 1) n f = (if P f then (parts P x (n - f) f).map (f :: ·) else []) ++ parts P (x + 1) n (f + 1) := by
  simp only [parts]
  rw [show n + 1 - f = (n + 1 - (f + 1)) + 1 by omega, List.range'_succ, List.flatMap_cons]

theorem parts_done (P : Nat → Bool) (x n f : Nat) (h : n < f) : parts P (x + 1) n f = [] := by
  simp only [parts]
  rw [show n + 1 - f = 0 by omega]; simp

theorem parts_one (P : Nat → Bool) (n f : Nat) (hn : n ≠ 0) (hf : 1 ≤ f) : parts P 1 n f = if f ≤ n ∧ P n then [[n]] else [] := by
  by_cases h : f ≤ n
  · have hs : ∀ d f, f + d = n → parts P 1 n f = if P n then [[n]] else [] := by
      intro d
      induction d with
      | zero =>
        intro f hf
        have : f = n := by omega
        subst this
        rw [parts_step P 0 f f (le_refl _), parts_done P 0 f _ (by omega)]
        simp [parts]
      | succ d ih =>
        intro f hf
        rw [parts_step P 0 n f (by omega), ih (f + 1) (by omega)]
        have : parts P 0 (n - f) f = [] := by simp [parts]; omega
        simp [this]
    rw [hs (n - f) f (by omega)]
    simp [h]
  · rw [parts_done P 0 n f (by omega)]; simp [h]

/-- what is left to be produced by an iterator state -/
def rem (P : Nat → Bool) : PIter → List (List Nat)
  | .leaf n x f =>
    if n < x then [] else if x = 0 then (if n = 0 ∧ f = 1 then [[]] else []) else parts P x n f
  | .node n x f r => if f ≤ n then (rem P r).map (f :: ·) ++ parts P x n (f + 1) else []

/-- representation invariant -/
def Valid (P : Nat → Bool) : PIter → Prop
  | .leaf _ _ f => 1 ≤ f
  | .node n x f r => 1 ≤ f ∧ f ≤ n ∧ 2 ≤ x ∧ x ≤ n ∧ P f = true ∧ r.fields.1 = n - f ∧ r.fields.2.1 = x - 1 ∧ Valid P r

theorem next_leaf (P : Nat → Bool) (n x f : Nat) : (PIter.leaf n x f).next P =
    (if n < x then some (none, .leaf n x f)
    else if n = 0 ∧ x = 0 then
      if f = 1 then some (some [], .leaf n x (f+1)) else some (none, .leaf n x f)
    else if n = 0 ∨ x = 0 then some (none, .leaf n x f)
    else if x = 1 then
      if f ≤ n then
        some (if P n then some [n] else none, .leaf n x (n+1))
      else some (none, .leaf n x f)
    else if f > n then some (none, .leaf n x f)
    else
      if P f = false then PIter.next P (.leaf n x (f + 1))
      else do
        let (o, rest') ← PIter.next P (.leaf (n - f) (x - 1) f)
        match o with
        | some part => some (some (f :: part), .node n x f rest')
        | none => PIter.next P (.leaf n x (f + 1))) := by
  rw [PIter.next]; rfl

theorem next_node (P : Nat → Bool) (n x f : Nat) (r : PIter) : (PIter.node n x f r).next P =
    (if n < x then some (none, .node n x f r)
    else if n = 0 ∧ x = 0 then
      if f = 1 then some (some [], .node n x (f+1) r) else some (none, .node n x f r)
    else if n = 0 ∨ x = 0 then some (none, .node n x f r)
    else if x = 1 then
      if f ≤ n then
        some (if P n then some [n] else none, .node n x (n+1) r)
      else some (none, .node n x f r)
    else if f > n then some (none, .node n x f r)
    else
      if P f = false then PIter.next P (.leaf n x (f + 1))
      else do
        let (o, rest') ← PIter.next P (r)
        match o with
        | some part => some (some (f :: part), .node n x f rest')
        | none => PIter.next P (.leaf n x (f + 1))) := by
  rw [PIter.next]; rfl

theorem next_rem_aux (P : Nat → Bool) : ∀ x, ∀ d, ∀ it : PIter, Valid P it → it.fields.2.1 = x → it.fields.1 + 1 - it.fields.2.2 = d →
    ∃ it', it.next P = some ((rem P it).head?, it') ∧ Valid P it' ∧ rem P it' = (rem P it).tail ∧
      it'.fields.1 = it.fields.1 ∧ it'.fields.2.1 = it.fields.2.1 := by
  intro x
  induction x with
  | zero =>
    intro d it hv hx hd
    cases it with
    | node n x f r => simp only [PIter.fields, Valid] at hx hv; omega
    | leaf n x f =>
      simp only [PIter.fields] at hx; subst hx
      rw [PIter.next]
      simp only [PIter.fields, Nat.not_lt_zero, if_false, and_true, or_true, if_true, rem]
      simp only [Valid] at hv
      by_cases hn : n = 0
      · by_cases hf : f = 1
        · simp [hn, hf, PIter.withFirst, Valid, rem, PIter.fields]
        · simp [hn, hf, Valid, hv, rem, PIter.fields]
      · simp [hn, Valid, hv, rem, PIter.fields]
  | succ x ihx =>
    intro d
    induction d with
    | zero =>
      intro it hv hx hd
      cases it with
      | node n x' f r => simp only [PIter.fields, Valid] at hx hv hd; omega
      | leaf n x' f =>
        simp only [PIter.fields] at hx hd; subst hx
        simp only [Valid] at hv
        have hr : rem P (.leaf n (x + 1) f) = [] := by
          simp only [rem]
          split; · rfl
          rw [if_neg (by omega), parts_done P x n f (by omega)]
        refine ⟨.leaf n (x + 1) f, ?_, hv, by rw [hr]; rfl, rfl, rfl⟩
        rw [next_leaf, hr]
        simp only [List.head?_nil]
        split; · rfl
        rw [if_neg (by omega)]
        split; · rfl
        split
        · rw [if_neg (by omega)]
        · rw [if_pos (by omega)]
    | succ d ihd =>
      intro it hv hx hd
      -- generic tail: moving on to first+1
      have hmove : ∀ n f, 1 ≤ f → n + 1 - f = d + 1 → x + 1 ≤ n → ∃ it', (PIter.leaf n (x + 1) (f + 1)).next P =
          some ((parts P (x + 1) n (f + 1)).head?, it') ∧ Valid P it' ∧ rem P it' = (parts P (x + 1) n (f + 1)).tail ∧
          it'.fields.1 = n ∧ it'.fields.2.1 = x + 1 := by
        intro n f h1 h2 hge
        obtain ⟨it', h⟩ := ihd (.leaf n (x + 1) (f + 1)) (by simp [Valid]) rfl (by simp [PIter.fields]; omega)
        have hr : rem P (.leaf n (x + 1) (f + 1)) = parts P (x + 1) n (f + 1) := by
          simp only [rem]
          rw [if_neg (by omega), if_neg (by omega)]
        rw [hr] at h
        exact ⟨it', h⟩
      have hfirst : ∀ n f r, 1 ≤ f → n + 1 - f = d + 1 → x + 1 ≤ n → P f = true → 1 ≤ x → Valid P r → r.fields.1 = n - f → r.fields.2.1 = x →
          ∃ it', (do
            let (o, rest') ← PIter.next P r
            match o with
            | some part => some (some (f :: part), PIter.node n (x + 1) f rest')
            | none => PIter.next P (.leaf n (x + 1) (f + 1))) =
            some (((rem P r).map (f :: ·) ++ parts P (x + 1) n (f + 1)).head?, it') ∧ Valid P it' ∧
            rem P it' = ((rem P r).map (f :: ·) ++ parts P (x + 1) n (f + 1)).tail ∧
            it'.fields.1 = n ∧ it'.fields.2.1 = x + 1 := by
        intro n f r h1 h2 hge hPf hx1 hvr hr1 hr2
        obtain ⟨r', e1, e2, e3, e4, e5⟩ := ihx _ r hvr hr2 rfl
        rw [e1]
        rcases hrem : rem P r with _ | ⟨p, t⟩
        · simp only [hrem, List.head?_nil, Option.bind_eq_bind, Option.bind_some, List.map_nil, List.nil_append]
          exact hmove n f h1 h2 hge
        · simp only [List.head?_cons, Option.bind_eq_bind, Option.bind_some, List.map_cons, List.cons_append, List.tail_cons]
          refine ⟨_, rfl, ?_, ?_, rfl, rfl⟩
          · simp only [Valid]
            exact ⟨h1, by omega, by omega, by omega, hPf, by rw [e4, hr1], by rw [e5, hr2]; omega, e2⟩
          · simp only [rem]
            rw [if_pos (by omega), e3, hrem]; rfl
      cases it with
      | leaf n x' f =>
        simp only [PIter.fields] at hx hd; subst hx
        simp only [Valid] at hv
        simp only [PIter.fields]
        by_cases hlt : n < x + 1
        · refine ⟨.leaf n (x + 1) f, ?_, hv, by simp [rem, hlt], rfl, rfl⟩
          rw [PIter.next]
          simp [PIter.fields, hlt, rem]
        have hrem : rem P (.leaf n (x + 1) f) = parts P (x + 1) n f := by
          simp only [rem]; rw [if_neg hlt, if_neg (by omega)]
        rw [next_leaf, hrem]
        rw [if_neg hlt, if_neg (by omega), if_neg (by omega)]
        by_cases hx1 : x + 1 = 1
        · have hx0 : x = 0 := by omega
          subst hx0
          rw [if_pos rfl, if_pos (by omega), parts_one P n f (by omega) hv]
          refine ⟨.leaf n (0 + 1) (n + 1), ?_, ?_, ?_, ?_, ?_⟩
          · by_cases hP : P n = true
            · simp [hP, show f ≤ n by omega]
            · simp [hP]
          · simp [Valid]
          · have : rem P (.leaf n (0 + 1) (n + 1)) = [] := by
              simp only [rem]; rw [if_neg hlt, if_neg (by omega), parts_done P 0 n _ (by omega)]
            rw [this]; split <;> rfl
          · rfl
          · rfl
        · rw [if_neg hx1, if_neg (by omega)]
          rw [parts_step P x n f (by omega)]
          by_cases hP : P f = true
          · rw [if_neg (by simp [hP]), if_pos hP]
            have := hfirst n f (.leaf (n - f) x f) hv hd (by omega) hP (by omega) (by simpa [Valid] using hv) rfl rfl
            have hr2 : rem P (.leaf (n - f) x f) = parts P x (n - f) f := by
              simp only [rem]
              split
              · rename_i h; rw [parts_empty_of_lt P x _ f hv h]
              · rw [if_neg (by omega)]
            rw [hr2] at this
            exact this
          · have hP' : P f = false := by simpa using hP
            rw [if_pos hP', if_neg hP, List.nil_append]
            exact hmove n f hv hd (by omega)
      | node n x' f r =>
        simp only [PIter.fields] at hx hd; subst hx
        simp only [Valid] at hv
        obtain ⟨v1, v2, v3, v4, v5, v6, v7, v8⟩ := hv
        simp only [PIter.fields, rem]
        rw [next_node]
        rw [if_neg (by omega), if_neg (by omega), if_neg (by omega), if_neg (by omega), if_neg (by omega),
          if_neg (by simp [v5]), if_pos v2]
        exact hfirst n f r v1 hd (by omega) v5 (by omega) v8 v6 (by omega)

theorem next_rem (P : Nat → Bool) (it : PIter) (h : Valid P it) :
    ∃ it', it.next P = some ((rem P it).head?, it') ∧ Valid P it' ∧ rem P it' = (rem P it).tail := by
  obtain ⟨it', a, b, c, -⟩ := next_rem_aux P _ _ it h rfl rfl
  exact ⟨it', a, b, c⟩

theorem collect_rem (P : Nat → Bool) (l : List (List Nat)) (it : PIter) (h : Valid P it) (hl : rem P it = l) :
    it.collect P = some l := by
  induction l generalizing it with
  | nil =>
    obtain ⟨it', a, b, c⟩ := next_rem P it h
    rw [PIter.collect, a, hl]; rfl
  | cons p t ih =>
    obtain ⟨it', a, b, c⟩ := next_rem P it h
    rw [PIter.collect, a, hl]
    simp only [List.head?_cons, Option.bind_eq_bind, Option.bind_some]
    rw [ih it' b (by rw [c, hl]; rfl)]; rfl

theorem collect_new (P : Nat → Bool) (n x : Nat) : predicatedPartitionsSized n x P = some (parts P x n 1) := by
  apply collect_rem _ _ _ (by simp [Valid, PIter.new])
  simp only [PIter.new, rem]
  split
  · rename_i h; rw [parts_empty_of_lt P x n 1 (le_refl _) h]
  · split
    · rename_i h; subst h; simp [parts]
    · rfl

end Verif.Sets
