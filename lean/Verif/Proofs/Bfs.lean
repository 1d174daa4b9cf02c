import Verif.Model.Table
import Mathlib.Logic.Relation
import Mathlib.Data.Finset.Card

/-! The breadth-first closure loop. -/

namespace Verif.Table

variable {α : Type} [DecidableEq α]

theorem bfsInsert_foldl (l : List α) (sg : Finset α) (nb : List α) :
    (∀ y, y ∈ (l.foldl bfsInsert (sg, nb)).1 ↔ y ∈ sg ∨ y ∈ l) ∧
    (∀ y, y ∈ (l.foldl bfsInsert (sg, nb)).2 ↔ y ∈ nb ∨ (y ∈ l ∧ y ∉ sg)) := by
  induction l generalizing sg nb with
  | nil => simp
  | cons a t ih =>
    rw [List.foldl_cons, bfsInsert]
    split
    · rename_i h
      simp only at h
      obtain ⟨h1, h2⟩ := ih sg nb
      refine ⟨fun y => ?_, fun y => ?_⟩
      · rw [h1]; simp only [List.mem_cons]
        constructor
        · tauto
        · rintro (h' | rfl | h') <;> tauto
      · rw [h2]; simp only [List.mem_cons]
        constructor
        · tauto
        · rintro (h' | ⟨rfl | h', h3⟩) <;> tauto
    · rename_i h
      simp only at h
      obtain ⟨h1, h2⟩ := ih (insert a sg) (nb ++ [a])
      refine ⟨fun y => ?_, fun y => ?_⟩
      · rw [h1]; simp only [Finset.mem_insert, List.mem_cons]; tauto
      · rw [h2]; simp only [Finset.mem_insert, List.mem_cons, List.mem_append, List.not_mem_nil, or_false]
        constructor
        · rintro ((h' | rfl) | ⟨h', h3⟩) <;> tauto
        · rintro (h' | ⟨rfl | h', h3⟩)
          · tauto
          · tauto
          · by_cases hy : y = a <;> tauto

theorem bfs_round (next : α → List α) (b : List α) (sg : Finset α) (nb : List α) (hnb : ∀ y ∈ nb, y ∈ sg) :
    let st := b.foldl (fun st x => (next x).foldl bfsInsert st) (sg, nb)
    (∀ y, y ∈ st.1 ↔ y ∈ sg ∨ ∃ x ∈ b, y ∈ next x) ∧
    (∀ y, y ∈ st.2 ↔ y ∈ nb ∨ (y ∉ sg ∧ ∃ x ∈ b, y ∈ next x)) := by
  induction b generalizing sg nb with
  | nil => simp
  | cons a t ih =>
    rw [List.foldl_cons]
    obtain ⟨h1, h2⟩ := bfsInsert_foldl (next a) sg nb
    generalize hst : (next a).foldl bfsInsert (sg, nb) = st at *
    obtain ⟨sg', nb'⟩ := st
    simp only at h1 h2
    obtain ⟨h3, h4⟩ := ih sg' nb' (by
      intro y hy
      rw [h1]
      rcases (h2 y).1 hy with h | h
      · exact Or.inl (hnb y h)
      · exact Or.inr h.1)
    refine ⟨fun y => ?_, fun y => ?_⟩
    · rw [h3, h1]; simp only [List.mem_cons, exists_eq_or_imp]; tauto
    · rw [h4, h2, h1]; simp only [List.mem_cons, exists_eq_or_imp]
      constructor
      · rintro ((h | ⟨h, h'⟩) | ⟨h, h'⟩)
        · exact Or.inl h
        · exact Or.inr ⟨h', Or.inl h⟩
        · exact Or.inr ⟨fun hh => h (Or.inl hh), Or.inr h'⟩
      · rintro (h | ⟨h, h' | h'⟩)
        · exact Or.inl (Or.inl h)
        · exact Or.inl (Or.inr ⟨h', h⟩)
        · by_cases hy : y ∈ next a
          · exact Or.inl (Or.inr ⟨hy, h⟩)
          · exact Or.inr ⟨by tauto, h'⟩

/-- reachability along `next` -/
def Reach (next : α → List α) (a b : α) : Prop := Relation.ReflTransGen (fun x y => y ∈ next x) a b

theorem Reach.tail' {next : α → List α} {a b c : α} (h : Reach next a b) (hc : c ∈ next b) : Reach next a c :=
  Relation.ReflTransGen.tail h hc

/-- Partial correctness: whenever the loop returns, the result is the set of everything reachable from the start. -/
theorem bfsLoop_sound (next : α → List α) (a : α) :
    ∀ (sg : Finset α) (b : List α) (r : Finset α), bfsLoop next sg b = some r →
      a ∈ sg → (∀ x ∈ sg, Reach next a x) → (∀ x ∈ b, x ∈ sg) → (∀ x ∈ sg, x ∉ b → ∀ y ∈ next x, y ∈ sg) →
      ∀ y, y ∈ r ↔ Reach next a y := by
  intro sg b r h
  refine bfsLoop.partial_correctness next (motive := fun sg b r =>
      a ∈ sg → (∀ x ∈ sg, Reach next a x) → (∀ x ∈ b, x ∈ sg) → (∀ x ∈ sg, x ∉ b → ∀ y ∈ next x, y ∈ sg) →
      ∀ y, y ∈ r ↔ Reach next a y) ?_ sg b r h
  intro f ih sg b r hr ha hreach hb hcl
  split at hr
  · rename_i hnil
    simp only [Option.some.injEq] at hr
    subst hr; subst hnil
    intro y
    refine ⟨hreach y, fun hy => ?_⟩
    induction hy with
    | refl => exact ha
    | tail _ hs ih' => exact hcl _ ih' (by simp) _ hs
  · obtain ⟨h1, h2⟩ := bfs_round next b sg [] (by simp)
    refine ih _ _ r hr ?_ ?_ ?_ ?_
    · rw [h1]; exact Or.inl ha
    · intro x hx
      rw [h1] at hx
      rcases hx with hx | ⟨z, hz, hx⟩
      · exact hreach x hx
      · exact (hreach z (hb z hz)).tail' hx
    · intro x hx
      rw [h1]
      rcases (h2 x).1 hx with h | ⟨-, h⟩
      · simp at h
      · exact Or.inr h
    · intro x hx hxb y hy
      rw [h1] at hx ⊢
      rw [h2] at hxb
      have hxs : x ∈ sg := by
        by_contra hns
        rcases hx with hx | hx
        · exact hns hx
        · exact hxb (Or.inr ⟨hns, hx⟩)
      by_cases hxb' : x ∈ b
      · exact Or.inr ⟨x, hxb', hy⟩
      · exact Or.inl (hcl x hxs hxb' y hy)

/-- Termination inside a finite set closed under `next`. -/
theorem bfsLoop_total (next : α → List α) (F : Finset α) (hF : ∀ x ∈ F, ∀ y ∈ next x, y ∈ F) :
    ∀ (k : Nat) (sg : Finset α) (b : List α), F.card - sg.card < k → sg ⊆ F → (∀ x ∈ b, x ∈ sg) →
      ∃ r, bfsLoop next sg b = some r := by
  intro k
  induction k with
  | zero => intro sg b h; omega
  | succ k ih =>
    intro sg b hk hsg hb
    rw [bfsLoop]
    split
    · exact ⟨_, rfl⟩
    · obtain ⟨h1, h2⟩ := bfs_round next b sg [] (by simp)
      generalize hst : b.foldl (fun st x => (next x).foldl bfsInsert st) (sg, []) = st at *
      obtain ⟨sg', nb'⟩ := st
      simp only at h1 h2 ⊢
      have hss : sg ⊆ sg' := fun x hx => (h1 x).2 (Or.inl hx)
      have hs'F : sg' ⊆ F := by
        intro x hx
        rcases (h1 x).1 hx with h | ⟨z, hz, h⟩
        · exact hsg h
        · exact hF z (hsg (hb z hz)) x h
      by_cases hnil : nb' = []
      · subst hnil
        exact ⟨sg', by rw [bfsLoop, if_pos rfl]⟩
      · obtain ⟨y, hy⟩ := List.exists_mem_of_ne_nil _ hnil
        have hy' := (h2 y).1 hy
        simp only [List.not_mem_nil, false_or] at hy'
        have hlt : sg.card < sg'.card := Finset.card_lt_card ⟨hss, fun hh => hy'.1 (hh ((h1 y).2 (Or.inr hy'.2)))⟩
        have hle := Finset.card_le_card hs'F
        exact ih sg' nb' (by omega) hs'F (by
          intro x hx
          rw [h1]
          rcases (h2 x).1 hx with h | ⟨-, h⟩
          · simp at h
          · exact Or.inr h)

theorem bfs_spec (next : α → List α) (a : α) (r : Finset α) (h : bfsLoop next {a} [a] = some r) : ∀ y, y ∈ r ↔ Reach next a y := by
  apply bfsLoop_sound next a {a} [a] r h
  · simp
  · intro x hx; rw [Finset.mem_singleton] at hx; subst hx; exact Relation.ReflTransGen.refl
  · simp
  · intro x hx hx'; simp at hx hx'; exact absurd hx hx'

theorem bfs_terminates (next : α → List α) (a : α) (F : Finset α) (ha : a ∈ F) (hF : ∀ x ∈ F, ∀ y ∈ next x, y ∈ F) :
    ∃ r, bfsLoop next {a} [a] = some r :=
  bfsLoop_total next F hF _ {a} [a] (Nat.lt_succ_self _) (by simpa using ha) (by simp)

end Verif.Table
