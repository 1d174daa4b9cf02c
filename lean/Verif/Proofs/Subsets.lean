import Verif.Model.Sets
import Mathlib.Data.List.Basic
import Mathlib.Data.List.Lex
import Mathlib.Data.List.Sort
import Mathlib.Data.List.Nodup
import Mathlib.Data.List.Perm.Subperm
import Mathlib.Data.Nat.Choose.Basic

namespace Verif.Sets

theorem mem_subsets (n k : Nat) (l : List Nat) :
    l ∈ subsets n k ↔ l.length = k ∧ l.Pairwise (· < ·) ∧ ∀ a ∈ l, a < n := by
  induction k generalizing n l with
  | zero =>
    simp only [subsets, List.mem_singleton]
    constructor
    · rintro rfl; simp
    · rintro ⟨h, -⟩; exact List.length_eq_zero_iff.1 h
  | succ k ih =>
    simp only [subsets]
    split
    · rename_i h
      simp only [List.not_mem_nil, false_iff]
      rintro ⟨h1, h2, h3⟩
      have hnd : l.Nodup := h2.imp (fun h => Nat.ne_of_lt h)
      have : l ⊆ List.range n := fun a ha => List.mem_range.2 (h3 a ha)
      have := (List.subperm_of_subset hnd this).length_le
      simp at this
      omega
    · simp only [List.mem_flatMap, List.mem_range, List.mem_map]
      constructor
      · rintro ⟨f, hf, t, ht, rfl⟩
        rw [ih] at ht
        obtain ⟨h1, h2, h3⟩ := ht
        refine ⟨by simp [h1], ?_, ?_⟩
        · rw [List.pairwise_cons]
          refine ⟨?_, ?_⟩
          · intro b hb
            rw [List.mem_map] at hb
            obtain ⟨c, _, rfl⟩ := hb
            omega
          · rw [List.pairwise_map]
            exact h2.imp (by intros; omega)
        · intro a ha
          rcases List.mem_cons.1 ha with rfl | ha
          · exact hf
          · rw [List.mem_map] at ha
            obtain ⟨c, hc, rfl⟩ := ha
            have := h3 c hc
            omega
      · rintro ⟨h1, h2, h3⟩
        cases l with
        | nil => simp at h1
        | cons f t =>
          rw [List.pairwise_cons] at h2
          refine ⟨f, h3 f (by simp), t.map (fun r => r - f - 1), ?_, ?_⟩
          · rw [ih]
            refine ⟨by simpa using h1, ?_, ?_⟩
            · rw [List.pairwise_map]
              apply (List.Pairwise.imp_of_mem ?_ h2.2)
              intro a b ha hb hab
              have := h2.1 a ha; have := h2.1 b hb
              omega
            · intro a ha
              rw [List.mem_map] at ha
              obtain ⟨b, hb, rfl⟩ := ha
              have := h2.1 b hb; have := h3 b (by simp [hb])
              omega
          · rw [List.map_map]
            congr 1
            rw [List.map_congr_left (g := id)]
            · simp
            · intro b hb
              have := h2.1 b hb
              simp only [Function.comp, id]
              omega

theorem lex_map {f : Nat → Nat} (hf : ∀ a b, a < b → f a < f b) {l m : List Nat} (h : List.Lex (· < ·) l m) :
    List.Lex (· < ·) (l.map f) (m.map f) := by
  induction h with
  | nil => exact List.Lex.nil
  | cons _ ih => exact List.Lex.cons ih
  | rel h => exact List.Lex.rel (hf _ _ h)

theorem subsets_sorted (n k : Nat) : (subsets n k).Pairwise (List.Lex (· < ·)) := by
  induction k generalizing n with
  | zero => simp [subsets]
  | succ k ih =>
    simp only [subsets]
    split
    · simp
    · rw [List.pairwise_flatMap]
      constructor
      · intro f _
        rw [List.pairwise_map]
        exact (ih _).imp fun h => List.Lex.cons (lex_map (by intros; omega) h)
      · refine (List.pairwise_lt_range (n := n)).imp ?_
        intro a b hab l hl m hm
        simp only [List.mem_map] at hl hm
        obtain ⟨t, _, rfl⟩ := hl
        obtain ⟨u, _, rfl⟩ := hm
        exact List.Lex.rel hab

theorem sum_choose (n k : Nat) : ((List.range n).map fun i => Nat.choose (n - i - 1) k).sum = Nat.choose n (k + 1) := by
  induction n with
  | zero => simp
  | succ n ih =>
    rw [List.range_succ_eq_map, List.map_cons, List.map_map, List.sum_cons, Nat.choose_succ_succ, ← ih]
    congr 2
    apply List.map_congr_left
    intro a _
    simp only [Function.comp]
    congr 1
    omega

theorem subsets_length (n k : Nat) : (subsets n k).length = Nat.choose n k := by
  induction k generalizing n with
  | zero => simp [subsets]
  | succ k ih =>
    simp only [subsets]
    split
    · rename_i h; rw [Nat.choose_eq_zero_of_lt h]; rfl
    · rw [List.length_flatMap, ← sum_choose]
      congr 1
      apply List.map_congr_left
      intro a _
      rw [List.length_map, ih]

theorem mapM_some_of {α β : Type} (f : α → Option β) (g : α → β) (l : List α) (h : ∀ a ∈ l, f a = some (g a)) :
    l.mapM f = some (l.map g) := by
  induction l with
  | nil => rfl
  | cons a t ih =>
    rw [List.mapM_cons, h a (by simp), ih (fun b hb => h b (by simp [hb]))]
    rfl

theorem subsetsVec_eq {T : Type} (items : List T) (k : Nat) [Inhabited T] :
    subsetsVec items k = some ((subsets items.length k).map fun s => s.map fun i => items[i]!) := by
  apply mapM_some_of
  intro s hs
  apply mapM_some_of
  intro i hi
  have := ((mem_subsets _ _ _).1 hs).2.2 i hi
  simp [this]

end Verif.Sets
