import Verif.Model.Perm
import Verif.Proofs.Subsets
import Mathlib.GroupTheory.Perm.Fin
import Mathlib.Data.List.Perm.Subperm
import Mathlib.Data.List.Induction

namespace Verif.Perm

/-- a rearrangement of `0..len` -/
def IsPermList (p : List Nat) : Prop := p.Perm (List.range p.length)

theorem IsPermList.nodup {p : List Nat} (h : IsPermList p) : p.Nodup := (h.nodup_iff).2 List.nodup_range

theorem IsPermList.mem {p : List Nat} (h : IsPermList p) (x : Nat) : x ∈ p ↔ x < p.length := by
  rw [h.mem_iff, List.mem_range]

theorem isPermList_of {p : List Nat} (h : ∀ x, x < p.length → x ∈ p) : IsPermList p := by
  have hs : List.range p.length ⊆ p := fun x hx => h x (List.mem_range.1 hx)
  have := List.subperm_of_subset List.nodup_range hs
  exact (this.perm_of_length_le (by simp)).symm

theorem isPermList_of_nodup {p : List Nat} (hn : p.Nodup) (h : ∀ x ∈ p, x < p.length) : IsPermList p := by
  have hs : p ⊆ List.range p.length := fun x hx => List.mem_range.2 (h x hx)
  exact (List.subperm_of_subset hn hs).perm_of_length_le (by simp)

theorem foldl_set_present (p : List Nat) (pr : List Bool) (x : Nat) (hx : x < pr.length) :
    (p.foldl (fun (pr : List Bool) i => pr.set i true) pr)[x]? = some (pr.getD x false || decide (x ∈ p)) := by
  induction p generalizing pr with
  | nil => simp [List.getD_eq_getElem?_getD, hx]
  | cons a t ih =>
    rw [List.foldl_cons, ih _ (by simpa using hx)]
    simp only [List.getD_eq_getElem?_getD, List.mem_cons, Option.some.injEq]
    by_cases hax : a = x
    · subst hax; simp [hx]
    · have : x ≠ a := fun h => hax h.symm
      rw [List.getElem?_set_ne hax]; simp [this]

theorem foldl_set_length (p : List Nat) (pr : List Bool) :
    (p.foldl (fun (pr : List Bool) i => pr.set i true) pr).length = pr.length := by
  induction p generalizing pr with
  | nil => rfl
  | cons a t ih => rw [List.foldl_cons, ih]; simp

theorem checkPerm_iff (p : List Nat) : checkPerm p = true ↔ IsPermList p := by
  unfold checkPerm
  simp only
  split
  · rename_i hall
    constructor
    · intro h
      apply isPermList_of
      intro x hx
      rw [List.all_eq_true] at h
      have hg := foldl_set_present p (List.replicate p.length false) x (by simpa using hx)
      have hm := List.mem_of_getElem? hg
      have := h _ hm
      simpa [List.getD_eq_getElem?_getD, hx] using this
    · intro h
      rw [List.all_eq_true]
      intro b hb
      obtain ⟨x, hx, hb⟩ := List.getElem_of_mem hb
      rw [foldl_set_length, List.length_replicate] at hx
      have hg := foldl_set_present p (List.replicate p.length false) x (by simpa using hx)
      rw [List.getElem?_eq_getElem (by rw [foldl_set_length]; simpa using hx), hb] at hg
      simp only [Option.some.injEq] at hg
      rw [hg]; simp [(h.mem x).2 hx]
  · rename_i hall
    simp only [Bool.false_eq_true, false_iff]
    intro h
    apply hall
    rw [List.all_eq_true]
    intro x hx
    simpa using (h.mem x).1 hx

/-- canonical: last entry is not a fixed point -/
def Canonical (p : List Nat) : Prop := ∀ x, p.getLast? = some x → x + 1 ≠ p.length

theorem reduced_append (p : List Nat) (x : Nat) :
    reduced (p ++ [x]) = if x = p.length then reduced p else p ++ [x] := by
  unfold reduced
  rw [List.reverse_append, List.reverse_singleton, List.singleton_append, reducedRev]
  simp only [List.length_cons, List.length_reverse, Nat.add_right_cancel_iff]
  split
  · rfl
  · simp

theorem reduced_nil : reduced [] = [] := rfl

theorem reduced_canonical (p : List Nat) : Canonical (reduced p) := by
  induction p using List.reverseRecOn with
  | nil => intro x hx; simp [reduced_nil] at hx
  | append_singleton p x ih =>
    rw [reduced_append]
    split
    · exact ih
    · rename_i h
      intro y hy
      simp at hy
      subst hy
      simpa using h

theorem reduced_of_canonical (p : List Nat) (h : Canonical p) : reduced p = p := by
  induction p using List.reverseRecOn with
  | nil => rfl
  | append_singleton p x ih =>
    rw [reduced_append, if_neg]
    have := h x (by simp)
    simpa using this

theorem call_append_fixed (p : List Nat) (x : Nat) : call (p ++ [p.length]) x = call p x := by
  unfold call
  rcases Nat.lt_trichotomy x p.length with h | h | h
  · rw [List.getElem?_append_left h]
  · subst h; simp
  · rw [List.getElem?_eq_none (by simp; omega), List.getElem?_eq_none (by omega)]

theorem call_reduced (p : List Nat) (x : Nat) : call (reduced p) x = call p x := by
  induction p using List.reverseRecOn with
  | nil => rfl
  | append_singleton p y ih =>
    rw [reduced_append]
    split
    · rename_i h; rw [h, ih, call_append_fixed]
    · rfl

theorem reduced_perm (p : List Nat) (h : IsPermList p) : IsPermList (reduced p) := by
  induction p using List.reverseRecOn with
  | nil => exact h
  | append_singleton p y ih =>
    rw [reduced_append]
    split
    · rename_i hy
      apply ih
      apply isPermList_of_nodup
      · exact (List.nodup_append.1 h.nodup).1
      · intro x hx
        have h1 := (h.mem x).1 (by simp [hx])
        simp at h1
        have h2 : x ≠ p.length := by
          rintro rfl
          have := (List.nodup_append.1 h.nodup).2.2 _ hx y (by simp)
          exact this hy.symm
        omega
    · exact h

theorem reduced_length_le (p : List Nat) : (reduced p).length ≤ p.length := by
  induction p using List.reverseRecOn with
  | nil => exact le_refl _
  | append_singleton p y ih =>
    rw [reduced_append]
    split
    · simp; omega
    · exact le_refl _

theorem call_of_lt (p : List Nat) (x : Nat) (h : x < p.length) : call p x = p[x] := by
  unfold call; rw [List.getElem?_eq_getElem h]

theorem call_of_ge (p : List Nat) (x : Nat) (h : p.length ≤ x) : call p x = x := by
  unfold call; rw [List.getElem?_eq_none h]

theorem call_lt (p : List Nat) (h : IsPermList p) (m x : Nat) (hm : p.length ≤ m) (hx : x < m) : call p x < m := by
  by_cases hl : x < p.length
  · rw [call_of_lt p x hl]
    have := (h.mem _).1 (List.getElem_mem hl)
    omega
  · rw [call_of_ge p x (by omega)]; exact hx

theorem call_injective (p : List Nat) (h : IsPermList p) : Function.Injective (call p) := by
  intro x y hxy
  by_cases hx : x < p.length <;> by_cases hy : y < p.length
  · rw [call_of_lt p x hx, call_of_lt p y hy] at hxy
    exact (h.nodup.getElem_inj_iff).1 hxy
  · rw [call_of_ge p y (by omega)] at hxy
    have := call_lt p h p.length x (le_refl _) hx
    omega
  · rw [call_of_ge p x (by omega)] at hxy
    have := call_lt p h p.length y (le_refl _) hy
    omega
  · rw [call_of_ge p x (by omega), call_of_ge p y (by omega)] at hxy; exact hxy

theorem eq_of_call_eq (p q : List Nat) (hp : Canonical p) (hq : Canonical q) (h : ∀ x, call p x = call q x) : p = q := by
  have key : ∀ p q : List Nat, Canonical q → (∀ x, call p x = call q x) → q.length ≤ p.length := by
    intro p q hq h
    by_contra hlt
    have hpos : q ≠ [] := by rintro rfl; simp at hlt
    have hl := hq _ (List.getLast?_eq_some_getLast hpos)
    have hx := h (q.length - 1)
    rw [call_of_ge p _ (by omega), call_of_lt q _ (by omega)] at hx
    rw [List.getLast_eq_getElem] at hl
    omega
  have hlen : p.length = q.length := le_antisymm (key q p hp fun x => (h x).symm) (key p q hq h)
  apply List.ext_getElem hlen
  intro i h1 h2
  have := h i
  rwa [call_of_lt p i h1, call_of_lt q i h2] at this

/-! inverse -/

theorem inverse_fold (n : Nat) (p : List Nat) (s : Nat) (inv : List Nat) (hlen : inv.length = n)
    (hp : ∀ x ∈ p, x < n) (hnd : p.Nodup) :
    ∃ r, (p.zipIdx s).foldlM (fun (inv : List Nat) (ji : Nat × Nat) =>
      if ji.1 < inv.length then some (inv.set ji.1 ji.2) else none) inv = some r ∧ r.length = n ∧
      (∀ i (h : i < p.length), r[p[i]]? = some (s + i)) ∧ ∀ x, x ∉ p → r[x]? = inv[x]? := by
  induction p generalizing s inv with
  | nil => exact ⟨inv, rfl, hlen, by simp, fun x _ => rfl⟩
  | cons a t ih =>
    rw [List.nodup_cons] at hnd
    have ha : a < n := hp a (by simp)
    obtain ⟨r, e1, e2, e3, e4⟩ := ih (s + 1) (inv.set a s) (by simpa using hlen) (fun x hx => hp x (by simp [hx])) hnd.2
    refine ⟨r, ?_, e2, ?_, ?_⟩
    · rw [List.zipIdx_cons, List.foldlM_cons]
      simp only [hlen, ha, if_true]
      exact e1
    · intro i hi
      cases i with
      | zero =>
        simp only [List.getElem_cons_zero, Nat.add_zero]
        rw [e4 a hnd.1, List.getElem?_set_self (by omega)]
      | succ i =>
        simp only [List.getElem_cons_succ]
        rw [e3 i (by simpa using hi)]
        congr 1; omega
    · intro x hx
      simp only [List.mem_cons, not_or] at hx
      rw [e4 x hx.2, List.getElem?_set_ne (fun h => hx.1 h.symm)]

theorem inverseRaw_spec (p : List Nat) (h : IsPermList p) :
    ∃ r, inverseRaw p = some r ∧ r.length = p.length ∧ IsPermList r ∧ (∀ x, call r (call p x) = x) ∧
      ∀ x, call p (call r x) = x := by
  obtain ⟨r, e1, e2, e3, -⟩ := inverse_fold p.length p 0 (List.replicate p.length 0) (by simp)
    (fun x hx => (h.mem x).1 hx) h.nodup
  have hleft : ∀ x, call r (call p x) = x := by
    intro x
    by_cases hx : x < p.length
    · rw [call_of_lt p x hx]
      unfold call
      rw [e3 x hx]; simp
    · rw [call_of_ge p x (by omega), call_of_ge r x (by omega)]
  have hrperm : IsPermList r := by
    apply isPermList_of
    intro x hx
    rw [e2] at hx
    have := e3 x hx
    simp only [Nat.zero_add] at this
    exact List.mem_of_getElem? this
  refine ⟨r, e1, e2, hrperm, hleft, ?_⟩
  intro x
  have : ∃ y, call p y = x := by
    by_cases hx : x < p.length
    · obtain ⟨i, hi, he⟩ := List.getElem_of_mem ((h.mem x).2 hx)
      exact ⟨i, by rw [call_of_lt p i hi, he]⟩
    · exact ⟨x, call_of_ge p x (by omega)⟩
  obtain ⟨y, rfl⟩ := this
  rw [hleft]

/-- the permutation of ℕ denoted by a valid list -/
noncomputable def toPerm (p : List Nat) (h : IsPermList p) : Equiv.Perm ℕ :=
  Equiv.ofBijective (call p) ⟨call_injective p h, fun x => by
    obtain ⟨r, -, -, -, -, h2⟩ := inverseRaw_spec p h
    exact ⟨call r x, h2 x⟩⟩

@[simp] theorem toPerm_apply (p : List Nat) (h : IsPermList p) (x : Nat) : toPerm p h x = call p x := rfl

/-- and of `Fin m`, for `m` at least the length -/
noncomputable def toFin (p : List Nat) (h : IsPermList p) (m : Nat) (hm : p.length ≤ m) : Equiv.Perm (Fin m) :=
  Equiv.ofBijective (fun i => ⟨call p i, call_lt p h m i hm i.2⟩) (by
    apply Function.Injective.bijective_of_finite
    intro x y hxy
    apply Fin.ext
    exact call_injective p h (by simpa using hxy))

@[simp] theorem toFin_val (p : List Nat) (h : IsPermList p) (m : Nat) (hm : p.length ≤ m) (i : Fin m) :
    (toFin p h m hm i).val = call p i := rfl

/-! composition -/

theorem map_perm (n : Nat) (f : Nat → Nat) (hinj : Function.Injective f) (hlt : ∀ i, i < n → f i < n) :
    IsPermList ((List.range n).map f) := by
  apply isPermList_of_nodup
  · exact List.nodup_range.map hinj
  · intro x hx
    rw [List.mem_map] at hx
    obtain ⟨i, hi, rfl⟩ := hx
    simpa using hlt i (List.mem_range.1 hi)

theorem call_map_range (n : Nat) (f : Nat → Nat) (hfix : ∀ i, n ≤ i → f i = i) (x : Nat) :
    call ((List.range n).map f) x = f x := by
  by_cases hx : x < n
  · rw [call_of_lt _ _ (by simpa using hx)]; simp
  · rw [call_of_ge _ _ (by simp; omega), hfix x (by omega)]

theorem compose_spec (a b : List Nat) (ha : IsPermList a) (hb : IsPermList b) :
    IsPermList (Permutation.compose a b) ∧ Canonical (Permutation.compose a b) ∧
      (∀ x, call (Permutation.compose a b) x = call a (call b x)) ∧
      (Permutation.compose a b).length ≤ max a.length b.length := by
  unfold Permutation.compose
  have hp : IsPermList ((List.range (max a.length b.length)).map fun i => call a (call b i)) := by
    apply map_perm _ (fun i => call a (call b i))
    · exact (call_injective a ha).comp (call_injective b hb)
    · intro i hi
      exact call_lt a ha _ _ (le_max_left _ _) (call_lt b hb _ _ (le_max_right _ _) hi)
  refine ⟨reduced_perm _ hp, reduced_canonical _, ?_, ?_⟩
  · intro x
    rw [call_reduced, call_map_range _ (fun i => call a (call b i))]
    intro i hi
    have h1 : b.length ≤ i := le_trans (le_max_right _ _) hi
    have h2 : a.length ≤ i := le_trans (le_max_left _ _) hi
    show call a (call b i) = i
    rw [call_of_ge b i h1, call_of_ge a i h2]
  · have := reduced_length_le ((List.range (max a.length b.length)).map fun i => call a (call b i))
    simpa using this

/-! sign -/

/-- C2 as a sign -/
def C2.toInt : C2 → ℤˣ
  | .identity => 1
  | .flip => -1

theorem C2.toInt_compose (a b : C2) : (a.compose b).toInt = a.toInt * b.toInt := by
  cases a <;> cases b <;> rfl

theorem C2.toInt_inj (a b : C2) (h : a.toInt = b.toInt) : a = b := by
  cases a <;> cases b <;> first | rfl | (exfalso; revert h; decide)

theorem foldl_C2 {α : Type} (l : List α) (c : α → Bool) (s : C2) :
    (l.foldl (fun s j => if c j then s.compose .flip else s) s).toInt =
      s.toInt * (l.map fun j => if c j then (-1 : ℤˣ) else 1).prod := by
  induction l generalizing s with
  | nil => simp
  | cons a t ih =>
    rw [List.foldl_cons, ih, List.map_cons, List.prod_cons]
    split
    · rw [C2.toInt_compose]; simp only [C2.toInt, mul_assoc]
    · rw [one_mul]

/-- inversion product up to `m` -/
def invProd (f : Nat → Nat) (m : Nat) : ℤˣ :=
  ((List.range m).map fun i => ((List.range i).map fun j => if f i < f j then (-1 : ℤˣ) else 1).prod).prod

theorem sign_toInt (p : List Nat) : (sign p).toInt = invProd (call p) p.length := by
  unfold sign invProd
  have h : ∀ (l : List Nat) (s : C2), (l.foldl (fun s i => (List.range i).foldl (fun s j =>
      if (decide (i < j)) != (decide (call p i < call p j)) then s.compose .flip else s) s) s).toInt =
      s.toInt * (l.map fun i => ((List.range i).map fun j => if call p i < call p j then (-1 : ℤˣ) else 1).prod).prod := by
    intro l
    induction l with
    | nil => simp
    | cons i t ih =>
      intro s
      rw [List.foldl_cons, ih, foldl_C2, List.map_cons, List.prod_cons, mul_assoc]
      congr 3
      apply List.map_congr_left
      intro j hj
      have : ¬ i < j := by simp at hj; omega
      simp [this]
  rw [h]; simp [C2.toInt]

theorem invProd_extend (p : List Nat) (h : IsPermList p) (m : Nat) (hm : p.length ≤ m) :
    invProd (call p) m = invProd (call p) p.length := by
  induction m with
  | zero =>
    have : p.length = 0 := by omega
    rw [this]
  | succ m ih =>
    rcases Nat.lt_or_ge m p.length with h1 | h1
    · have : p.length = m + 1 := by omega
      rw [this]
    · rw [← ih h1]
      unfold invProd
      rw [List.range_succ, List.map_append, List.prod_append]
      have : ((List.range m).map fun j => if call p m < call p j then (-1 : ℤˣ) else 1).prod = 1 := by
        apply List.prod_eq_one
        intro x hx
        rw [List.mem_map] at hx
        obtain ⟨j, hj, rfl⟩ := hx
        have := call_lt p h m j h1 (by simpa using hj)
        rw [call_of_ge p m h1, if_neg (by omega)]
      simp [this]

theorem list_range_prod (n : Nat) (f : Nat → ℤˣ) : ((List.range n).map f).prod = ∏ i ∈ Finset.range n, f i := by
  induction n with
  | zero => simp
  | succ n ih => rw [List.range_succ, List.map_append, List.prod_append, ih, Finset.prod_range_succ]; simp

theorem invProd_eq_sign (m : Nat) (σ : Equiv.Perm (Fin m)) (f : Nat → Nat) (hf : ∀ i : Fin m, (σ i).val = f i) :
    invProd f m = Equiv.Perm.sign σ := by
  rw [Equiv.Perm.sign_eq_prod_prod_Iio]
  unfold invProd
  rw [list_range_prod, Finset.prod_range]
  apply Finset.prod_congr rfl
  intro i _
  rw [list_range_prod]
  symm
  apply Finset.prod_bij (fun (a : Fin m) _ => a.val)
  · intro a ha; simpa using ha
  · intro a _ b _ h; exact Fin.ext h
  · intro b hb
    have hb' : b < i.val := by simpa using hb
    exact ⟨⟨b, by omega⟩, by simpa [Fin.lt_def] using hb', rfl⟩
  · intro a ha
    rw [← hf i, ← hf a]
    have hne : σ a ≠ σ i := by
      intro h
      have := σ.injective h
      subst this
      simp at ha
    have hne' : (σ a).val ≠ (σ i).val := fun h => hne (Fin.ext h)
    by_cases hlt : (σ a).val < (σ i).val
    · rw [if_pos (Fin.lt_def.2 hlt), if_neg (by omega)]
    · rw [if_neg (by rw [Fin.lt_def]; exact hlt), if_pos (by omega)]

theorem sign_spec (p : List Nat) (h : IsPermList p) (m : Nat) (hm : p.length ≤ m) :
    (sign p).toInt = Equiv.Perm.sign (toFin p h m hm) := by
  rw [sign_toInt, ← invProd_extend p h m hm]
  exact invProd_eq_sign m _ _ fun i => rfl

end Verif.Perm
