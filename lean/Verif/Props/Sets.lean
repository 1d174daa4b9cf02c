import Verif.Proofs.Partition
import Verif.Proofs.Comb

/-!
# Property theorems for `algebraeon-sets` (C01–C05)
-/

namespace Verif.Props.Sets

open Verif.Sets

/-- `l` enumerates exactly the lists satisfying `Q`, in strictly increasing lexicographic order (so without repetition). -/
def LexEnumerates (l : List (List Nat)) (Q : List Nat → Prop) : Prop :=
  l.Pairwise (List.Lex (· < ·)) ∧ ∀ t, t ∈ l ↔ Q t

/-- an enumeration in strict lexicographic order has no repetitions -/
theorem LexEnumerates.nodup {l : List (List Nat)} {Q : List Nat → Prop} (h : LexEnumerates l Q) : l.Nodup :=
  h.1.imp (S := (· ≠ ·)) (by rintro a b h rfl; exact lex_irrefl _ h)

/-- and is determined by `Q`: there is only one such list -/
theorem LexEnumerates.unique {l m : List (List Nat)} {Q : List Nat → Prop} (h : LexEnumerates l Q) (h' : LexEnumerates m Q) : l = m :=
  sorted_ext l m h.1 h'.1 fun t => (h.2 t).trans (h'.2 t).symm

/-! ## C01, C02 partitions -/

/-- partitions of `n` into exactly `x` positive parts, in non-decreasing order, all satisfying `P` -/
def IsPartition (n x : Nat) (P : Nat → Bool) (l : List Nat) : Prop :=
  l.length = x ∧ l.sum = n ∧ l.Pairwise (· ≤ ·) ∧ (∀ a ∈ l, 1 ≤ a) ∧ ∀ a ∈ l, P a = true

/-- C01: for every `n`, `x`, predicate: the iterator terminates and enumerates exactly the partitions, in lexicographic order. -/
theorem C01_partitions_sized (n x : Nat) (P : Nat → Bool) :
    ∃ l, predicatedPartitionsSized n x P = some l ∧ LexEnumerates l (IsPartition n x P) :=
  ⟨_, collect_new P n x, parts_sorted P x n 1, fun t => mem_parts P x n 1 (le_refl _) t⟩

/-- C01 for `partitions_sized` (no predicate). -/
theorem C01_partitions_sized_all (n x : Nat) :
    ∃ l, partitionsSized n x = some l ∧
      LexEnumerates l fun t => t.length = x ∧ t.sum = n ∧ t.Pairwise (· ≤ ·) ∧ ∀ a ∈ t, 1 ≤ a := by
  obtain ⟨l, h1, h2, h3⟩ := C01_partitions_sized n x fun _ => true
  refine ⟨l, h1, h2, fun t => ?_⟩
  rw [h3 t]; simp [IsPartition]

example : IsPartition 5 2 (fun k => k % 2 == 1 || k == 4) [1, 4] := by simp [IsPartition]

/-- C02: partitions into `x` possibly zero parts. -/
theorem C02_partitions_sized_zero (n x : Nat) (P : Nat → Bool) :
    ∃ l, predicatedPartitionsSizedZero n x P = some l ∧
      LexEnumerates l fun t => t.length = x ∧ t.sum = n ∧ t.Pairwise (· ≤ ·) ∧ ∀ a ∈ t, P a = true := by
  obtain ⟨l, h1, h2, h3⟩ := C01_partitions_sized (n + x) x fun k => P (k - 1)
  refine ⟨l.map fun part => part.map (· - 1), ?_, ?_, ?_⟩
  · unfold predicatedPartitionsSizedZero
    unfold predicatedPartitionsSized at h1
    rw [h1]; rfl
  · rw [List.pairwise_map]
    apply List.Pairwise.imp_of_mem ?_ h2
    intro s t hs ht hst
    have hs' := ((h3 s).1 hs).2.2.2.1
    have ht' := ((h3 t).1 ht).2.2.2.1
    clear hs ht
    induction hst with
    | nil => exact List.Lex.nil
    | cons _ ih => exact List.Lex.cons (ih (fun a ha => hs' a (by simp [ha])) (fun a ha => ht' a (by simp [ha])))
    | rel h =>
      rename_i a u b v
      have := hs' a (by simp)
      have := ht' b (by simp)
      exact List.Lex.rel (by simp only; omega)
  · intro t
    have hsum : ∀ u : List Nat, (u.map (· + 1)).sum = u.sum + u.length := by
      intro u; induction u with
      | nil => rfl
      | cons a u ih => simp at ih ⊢; omega
    have hinv : ∀ u : List Nat, (u.map (· + 1)).map (· - 1) = u := by
      intro u; rw [List.map_map, List.map_congr_left (g := id)] <;> simp
    rw [List.mem_map]
    constructor
    · rintro ⟨s, hs, rfl⟩
      obtain ⟨a1, a2, a3, a4, a5⟩ := (h3 s).1 hs
      have hback : (s.map (· - 1)).map (· + 1) = s := by
        rw [List.map_map, List.map_congr_left (g := id)]
        · simp
        · intro a ha; have := a4 a ha; simp only [Function.comp, id]; omega
      have hsm := hsum (s.map (· - 1))
      rw [hback] at hsm
      simp only [List.length_map] at hsm
      refine ⟨by simpa using a1, by omega, ?_, ?_⟩
      · rw [List.pairwise_map]; exact a3.imp (by intros; omega)
      · intro a ha
        rw [List.mem_map] at ha
        obtain ⟨b, hb, rfl⟩ := ha
        exact a5 b hb
    · rintro ⟨a1, a2, a3, a4⟩
      refine ⟨t.map (· + 1), ?_, hinv t⟩
      rw [h3]
      refine ⟨by simpa using a1, by rw [hsum]; omega, ?_, ?_, ?_⟩
      · rw [List.pairwise_map]; exact a3.imp (by intros; omega)
      · intro a ha
        rw [List.mem_map] at ha
        obtain ⟨b, hb, rfl⟩ := ha
        omega
      · intro a ha
        rw [List.mem_map] at ha
        obtain ⟨b, hb, rfl⟩ := ha
        exact a4 b hb

theorem flatCollect_eq (f : Nat → Option (List (List Nat))) (g : Nat → List (List Nat)) (l : List Nat)
    (h : ∀ x, f x = some (g x)) : flatCollect f l = some (l.flatMap g) := by
  induction l with
  | nil => rfl
  | cons a t ih => simp [flatCollect, h, ih]

/-- C02: partitions into any (positive) number of parts: each exactly once, grouped by number of parts and lexicographic inside a
group; in particular nothing for `n = 0`. -/
theorem C02_partitions (n : Nat) (P : Nat → Bool) :
    ∃ l, predicatedPartitions n P = some l ∧ l.Nodup ∧
      (∀ t, t ∈ l ↔ t ≠ [] ∧ t.sum = n ∧ t.Pairwise (· ≤ ·) ∧ (∀ a ∈ t, 1 ≤ a) ∧ ∀ a ∈ t, P a = true) ∧
      l.Pairwise (fun s t => s.length < t.length ∨ (s.length = t.length ∧ List.Lex (· < ·) s t)) := by
  choose g hg hgs hgm using fun x => C01_partitions_sized n x P
  have hlenle : ∀ t : List Nat, (∀ a ∈ t, 1 ≤ a) → t.length ≤ t.sum := by
    intro t
    induction t with
    | nil => simp
    | cons a t ih => intro h; have := h a (by simp); have := ih (fun b hb => h b (by simp [hb])); simp; omega
  have hpair : ((List.range' 1 n).flatMap g).Pairwise
      (fun s t => s.length < t.length ∨ (s.length = t.length ∧ List.Lex (· < ·) s t)) := by
    rw [List.pairwise_flatMap]
    constructor
    · intro x _
      apply List.Pairwise.imp_of_mem ?_ (hgs x)
      intro s t hs ht hst
      right
      exact ⟨((hgm x s).1 hs).1.trans ((hgm x t).1 ht).1.symm, hst⟩
    · refine (List.pairwise_lt_range' (s := 1) (n := n)).imp ?_
      intro x y hxy s hs t ht
      left
      rw [((hgm x s).1 hs).1, ((hgm y t).1 ht).1]; exact hxy
  refine ⟨_, flatCollect_eq _ g _ hg, ?_, ?_, hpair⟩
  · apply hpair.imp
    rintro s t (h | ⟨-, h⟩) rfl
    · exact lt_irrefl _ h
    · exact lex_irrefl _ h
  · intro t
    rw [List.mem_flatMap]
    constructor
    · rintro ⟨x, hx, ht⟩
      obtain ⟨a1, a2, a3, a4, a5⟩ := (hgm x t).1 ht
      rw [List.mem_range'_1] at hx
      refine ⟨?_, a2, a3, a4, a5⟩
      rintro rfl
      simp at a1; omega
    · rintro ⟨a1, a2, a3, a4, a5⟩
      refine ⟨t.length, ?_, (hgm _ t).2 ⟨rfl, a2, a3, a4, a5⟩⟩
      rw [List.mem_range'_1]
      have := List.length_pos_iff.2 a1
      have := hlenle t a4
      omega

example : ([2, 3] : List Nat) ≠ [] ∧ [2, 3].sum = 5 ∧ [2, 3].Pairwise (· ≤ ·) := by decide

/-! ## C03 subsets -/

/-- C03: `subsets(n,k)` enumerates the strictly increasing length-`k` lists below `n` in lexicographic order; there are `n choose k`. -/
theorem C03_subsets (n k : Nat) :
    LexEnumerates (subsets n k) (fun t => t.length = k ∧ t.Pairwise (· < ·) ∧ ∀ a ∈ t, a < n) ∧
    (subsets n k).length = Nat.choose n k :=
  ⟨⟨subsets_sorted n k, mem_subsets n k⟩, subsets_length n k⟩

/-- C03: `subsets_vec(items,k)` never panics and selects the items at those positions, in the same order. -/
theorem C03_subsets_vec {T : Type} (items : List T) (k : Nat) :
    ∃ r, subsetsVec items k = some r ∧
      List.Forall₂ (fun (s : List Nat) (sel : List T) => List.Forall₂ (fun i x => items[i]? = some x) s sel)
        (subsets items.length k) r := by
  rcases isEmpty_or_nonempty T with hT | hT
  · have hi : items = [] := List.eq_nil_iff_forall_not_mem.2 fun x => hT.elim x
    subst hi
    cases k with
    | zero => exact ⟨[[]], rfl, by simp [subsets]⟩
    | succ k => exact ⟨[], rfl, by simp [subsets]⟩
  · obtain ⟨x0⟩ := hT
    have : Inhabited T := ⟨x0⟩
    refine ⟨_, subsetsVec_eq items k, ?_⟩
    rw [List.forall₂_map_right_iff]
    rw [List.forall₂_same]
    intro s hs
    rw [List.forall₂_map_right_iff, List.forall₂_same]
    intro i hi
    have := ((mem_subsets _ _ _).1 hs).2.2 i hi
    simp [this]

example : subsets 4 2 = [[0, 1], [0, 2], [0, 3], [1, 2], [1, 3], [2, 3]] := by decide

/-! ## C04, C05 combinations with removals -/

/-- The specification of the iterator: a list of pending subsets; `next` pops the first one, `exclude a` drops every pending subset
containing `a`. -/
def specRun : List (List Nat) → List CombOp → List (Option (List Nat))
  | _, [] => []
  | L, .next :: t => L.head? :: specRun L.tail t
  | L, .exclude a :: t => specRun (L.filter fun s => a ∉ s) t

theorem run_spec {N k : Nat} (ops : List CombOp) (c : Comb) (h : CInv N k c) (ho : ∀ a, CombOp.exclude a ∈ ops → a < N) :
    c.run ops = some (specRun ((pend k c).map (items c)) ops) := by
  induction ops generalizing c with
  | nil => rfl
  | cons op t ih =>
    have ho' : ∀ a, CombOp.exclude a ∈ t → a < N := fun a ha => ho a (by simp [ha])
    cases op with
    | next =>
      obtain ⟨c', e1, e2, e3, e4, e5, e6⟩ := next_spec h
      simp only [Comb.run, e1, Option.bind_eq_bind, Option.bind_some, specRun]
      rw [ih c' e2 ho', e3, items_congr e5]
      simp
    | exclude a =>
      obtain ⟨c', e1, e2, e3⟩ := exclude_spec h a (ho a (by simp))
      simp only [Comb.run, e1, Option.bind_eq_bind, Option.bind_some, specRun]
      rw [ih c' e2 ho', e3]

/-- C04: for `k < n` and every history of `next()` / `exclude(a)` calls with `a < n`, no call panics or diverges and the returned values
are those of the specification started on the lexicographic list `L` of all `k`-subsets of `0..n`. -/
theorem C04_combinations (n k : Nat) (hk : k < n) (ops : List CombOp) (ho : ∀ a, CombOp.exclude a ∈ ops → a < n)
    (L : List (List Nat)) (hL : LexEnumerates L fun t => t.length = k ∧ t.Pairwise (· < ·) ∧ ∀ a ∈ t, a < n) :
    (Comb.new n k).run ops = some (specRun L ops) := by
  have : L = subsets n k := hL.unique (C03_subsets n k).1
  rw [this, run_spec ops _ (new_inv n k hk.le) ho, new_pend n k hk]

example : (3 < 7) ∧ LexEnumerates (subsets 7 3) (fun t => t.length = 3 ∧ t.Pairwise (· < ·) ∧ ∀ a ∈ t, a < 7) :=
  ⟨by decide, (C03_subsets 7 3).1⟩
example : specRun (subsets 4 2) [.next, .exclude 2, .next, .next, .next] =
    [some [0, 1], some [0, 3], some [1, 3], none] := by decide

/-- C05, violated: for every `n ≥ 0` the iterator `new(n,n)` returns `None` on the first call, although `{0,…,n-1}` is an `n`-subset, so the
specification demands `Some([0,…,n-1])`. -/
theorem C05_full_subset_missing (n : Nat) :
    (Comb.new n n).run [.next] = some [none] ∧ specRun (subsets n n) [.next] = [some (List.range n)] := by
  constructor
  · have h := run_spec [.next] _ (new_inv n n (le_refl _)) (by simp)
    rw [h]
    have : pend n (Comb.new n n) = [] := by simp [pend, Comb.new]
    rw [this]; rfl
  · have hmem : List.range n ∈ subsets n n := by
      rw [mem_subsets]
      exact ⟨by simp, List.pairwise_lt_range, by simp⟩
    have hlen : (subsets n n).length = 1 := by rw [subsets_length, Nat.choose_self]
    obtain ⟨s, hs⟩ := List.length_eq_one_iff.1 hlen
    rw [hs] at hmem ⊢
    simp only [List.mem_singleton] at hmem
    simp [specRun, hmem]

/-- C05: what does hold: for `k < n` the first value is the first subset (the defect is confined to `k ≥ n`). -/
theorem C05_first_subset_partial (n k : Nat) (hk : k < n) :
    (Comb.new n k).run [.next] = some [some (List.range k)] := by
  rw [C04_combinations n k hk [.next] (by simp) _ (C03_subsets n k).1]
  simp only [specRun, Option.some.injEq, List.cons.injEq, and_true]
  have h := filter_ge_cons (subsets n k) (List.range k) (subsets_sorted n k) ((new_inv n k hk.le).sub)
  have h2 : ((subsets n k).filter fun t => LexLe (List.range k) t) = subsets n k := by
    rw [List.filter_eq_self]
    intro t ht
    have ht' := (mem_subsets _ _ _).1 ht
    rw [decide_eq_true_eq, List.range_eq_range']
    exact range'_le k 0 t ht'.2.1 ht'.1 (by simp)
  rw [h2] at h
  rw [h]; rfl

theorem findI_underflow (n : Nat) : ∀ (m i : Nat), n < m + i → i ≤ n → findI n (List.range m).reverse i = none := by
  intro m
  induction m with
  | zero => intro i h1 h2; omega
  | succ m ih =>
    intro i h1 h2
    rw [List.range_succ, List.reverse_append, List.reverse_singleton, List.singleton_append, findI]
    split
    · rfl
    · rw [if_neg (by omega)]
      exact ih (i + 1) (by omega) (by omega)

/-- C05, violated: for `k > n` (no subsets at all) the first `next()` underflows in `self.n - i - 1` (a panic in debug builds) instead of
returning `None`. -/
theorem C05_too_large_panics (n k : Nat) (hk : n < k) : (Comb.new n k).next = none := by
  unfold Comb.next
  have : (Comb.new n k).out = some none := by simp [Comb.out, Comb.new]; omega
  rw [this]
  have h2 : findI (Comb.new n k).n (Comb.new n k).subset.reverse 0 = none := findI_underflow n k 0 (by omega) (by omega)
  rw [h2]; rfl

example : (2 : Nat) < 5 := by decide

end Verif.Props.Sets
