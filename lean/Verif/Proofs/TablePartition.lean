import Verif.Proofs.TableClosure
import Verif.Proofs.TableCons
import Mathlib.GroupTheory.QuotientGroup.Basic
import Mathlib.GroupTheory.Index
import Mathlib.Algebra.BigOperators.Group.List.Basic
import Mathlib.Algebra.BigOperators.Group.Finset.Basic

/-! Partition validation, equality of partitions, quotient groups, subgroups as groups. -/

namespace Verif.Table

theorem insertM_spec (l : List Nat) (acc : Finset Nat) (hnd : l.Nodup) :
    l.foldlM (fun (a : Finset Nat) x => if x ∈ a then none else some (insert x a)) acc =
      if ∀ x ∈ l, x ∉ acc then some (acc ∪ l.toFinset) else none := by
  induction l generalizing acc with
  | nil => simp
  | cons a t ih =>
    rw [List.foldlM_cons]
    have hnt := List.nodup_cons.1 hnd
    by_cases h : a ∈ acc
    · rw [if_pos h, if_neg (fun hh => hh a (by simp) h)]; rfl
    · rw [if_neg h]
      change t.foldlM _ (insert a acc) = _
      rw [ih _ hnt.2]
      by_cases hall : ∀ x ∈ t, x ∉ acc
      · rw [if_pos, if_pos]
        · congr 1; ext y; simp
        · intro x hx
          rcases List.mem_cons.1 hx with rfl | hx
          · exact h
          · exact hall x hx
        · intro x hx hm
          rcases Finset.mem_insert.1 hm with rfl | hm
          · exact hnt.1 hx
          · exact hall x hx hm
      · rw [if_neg, if_neg]
        · intro hh; exact hall fun x hx => hh x (by simp [hx])
        · intro hh; exact hall fun x hx hm => hh x hx (Finset.mem_insert_of_mem hm)

theorem accountLoop_spec (cs : List (Finset Nat)) (acc : Finset Nat) :
    (∀ r, accountLoop cs acc = some r → (∀ c ∈ cs, c.Nonempty ∧ Disjoint c acc) ∧ cs.Pairwise Disjoint ∧ ∀ x, x ∈ r ↔ x ∈ acc ∨ ∃ c ∈ cs, x ∈ c) ∧
    ((∀ c ∈ cs, c.Nonempty ∧ Disjoint c acc) → cs.Pairwise Disjoint → ∃ r, accountLoop cs acc = some r) := by
  induction cs generalizing acc with
  | nil => simp [accountLoop]
  | cons c t ih =>
    rw [accountLoop]
    rw [insertM_spec _ _ (Finset.sort_nodup _ _)]
    constructor
    · intro r hr
      split at hr
      · simp at hr
      · rename_i hc
        by_cases hd : ∀ x ∈ c.sort (· ≤ ·), x ∉ acc
        · rw [if_pos hd] at hr
          simp only at hr
          obtain ⟨h1, h2, h3⟩ := (ih _).1 r hr
          simp only [Finset.mem_sort] at hd
          have hne : c.Nonempty := Finset.card_pos.1 (by omega)
          refine ⟨?_, ?_, ?_⟩
          · intro d hd'
            rcases List.mem_cons.1 hd' with rfl | hd'
            · exact ⟨hne, Finset.disjoint_left.2 hd⟩
            · have := (h1 d hd').2
              rw [Finset.disjoint_union_right] at this
              exact ⟨(h1 d hd').1, this.1⟩
          · rw [List.pairwise_cons]
            refine ⟨?_, h2⟩
            intro d hd'
            have := (h1 d hd').2
            rw [Finset.disjoint_union_right] at this
            have := this.2
            rw [Finset.sort_toFinset] at this
            exact this.symm
          · intro x
            rw [h3]
            simp only [Finset.mem_union, List.mem_toFinset, Finset.mem_sort, List.mem_cons, exists_eq_or_imp]
            tauto
        · rw [if_neg hd] at hr; simp at hr
    · intro h1 h2
      have hc := h1 c (by simp)
      rw [if_neg (by have := Finset.card_pos.2 hc.1; omega), if_pos (by
        simp only [Finset.mem_sort]; exact fun x hx => Finset.disjoint_left.1 hc.2 hx)]
      simp only
      rw [List.pairwise_cons] at h2
      apply (ih _).2 _ h2.2
      intro d hd
      refine ⟨(h1 d (by simp [hd])).1, ?_⟩
      rw [Finset.sort_toFinset, Finset.disjoint_union_right]
      exact ⟨(h1 d (by simp [hd])).2, (h2.1 d hd).symm⟩

theorem getD_some {α : Type} (l : List α) (i : Nat) (d x : α) (h : l[i]? = some x) : l.getD i d = x := by
  rw [List.getD_eq_getElem?_getD, h]; rfl

theorem check_spec (n : Nat) (s : PState) : s.check n = true ↔ IsPart n s := by
  unfold PState.check
  obtain ⟨a1, a2⟩ := accountLoop_spec s.classes ∅
  rcases hacc : accountLoop s.classes ∅ with _ | acc
  · simp only [Bool.false_eq_true, false_iff]
    intro h
    obtain ⟨r, hr⟩ := a2 (fun c hc => ⟨h.nonempty c hc, by simp⟩) h.disj
    rw [hr] at hacc; simp at hacc
  · obtain ⟨b1, b2, b3⟩ := a1 acc hacc
    simp only
    have hlook : (s.lookup.zipIdx.all fun ci => decide (ci.1 < s.classes.length) && decide (ci.2 ∈ s.classes.getD ci.1 ∅)) = true ↔
        ∀ x, x < s.lookup.length → ∃ c, s.classes[s.lookup.getD x 0]? = some c ∧ x ∈ c := by
      rw [List.all_eq_true]
      constructor
      · intro h x hx
        have := h (s.lookup[x], x) (by rw [List.mk_mem_zipIdx_iff_getElem?]; exact List.getElem?_eq_getElem hx)
        simp only [Bool.and_eq_true, decide_eq_true_eq] at this
        rw [List.getD_eq_getElem _ _ hx]
        refine ⟨s.classes[s.lookup[x]], List.getElem?_eq_getElem this.1, ?_⟩
        have h2 := this.2
        rwa [List.getD_eq_getElem _ _ this.1] at h2
      · rintro h ⟨c, i⟩ hci
        rw [List.mk_mem_zipIdx_iff_getElem?] at hci
        obtain ⟨hi, rfl⟩ := List.getElem?_eq_some_iff.1 hci
        obtain ⟨d, h1, h2⟩ := h i hi
        rw [List.getD_eq_getElem _ _ hi] at h1
        obtain ⟨h3, rfl⟩ := List.getElem?_eq_some_iff.1 h1
        simp only [Bool.and_eq_true, decide_eq_true_eq]
        refine ⟨h3, ?_⟩
        rwa [List.getD_eq_getElem _ _ h3]
    split
    · rename_i hcard
      simp only [Bool.false_eq_true, false_iff]
      intro h
      apply hcard
      have : acc = Finset.range n := by
        ext x; rw [b3, Finset.mem_range, ← h.cover x]; simp
      rw [this, Finset.card_range]
    · rename_i hcard
      push Not at hcard
      split
      · rename_i hl
        simp only [Bool.false_eq_true, false_iff]
        exact fun h => hl h.len
      · rename_i hl
        push Not at hl
        rw [hlook]
        constructor
        · intro h
          refine ⟨fun c hc => (b1 c hc).1, b2, ?_, hl, by rwa [hl] at h⟩
          -- range n ⊆ acc and equal cardinality
          have hsub : Finset.range n ⊆ acc := by
            intro x hx
            rw [Finset.mem_range, ← hl] at hx
            obtain ⟨c, h1, h2⟩ := h x hx
            rw [b3]
            exact Or.inr ⟨c, List.mem_of_getElem? h1, h2⟩
          have heq : Finset.range n = acc := Finset.eq_of_subset_of_card_le hsub (by rw [hcard, Finset.card_range])
          intro x
          rw [← Finset.mem_range, heq, b3]; simp
        · intro h; rw [hl]; exact h.look

/-- the result of the class loop is a valid partition -/
theorem ClassesOf.isPart {n : Nat} {cls : Nat → Finset Nat} {s : PState} (h : ClassesOf n cls s) (hself : ∀ x, x < n → x ∈ cls x)
    (hsub : ∀ x, x < n → ∀ y ∈ cls x, y < n) : IsPart n s where
  nonempty c hc := by obtain ⟨x, hx, rfl⟩ := h.mem c hc; exact ⟨x, hself x hx⟩
  disj := h.disj
  cover x := by
    constructor
    · rintro ⟨c, hc, hx⟩
      obtain ⟨y, hy, rfl⟩ := h.mem c hc
      exact hsub y hy x hx
    · intro hx
      have h1 := h.proj x hx
      have h2 := h.look_lt x hx
      unfold PState.project at h1
      rw [List.getD_eq_getElem _ _ h2] at h1
      exact ⟨_, List.getElem_mem h2, by rw [h1]; exact hself x hx⟩
  len := h.len
  look x hx := by
    have h1 := h.proj x hx
    have h2 := h.look_lt x hx
    unfold PState.project at h1
    rw [List.getD_eq_getElem _ _ h2] at h1
    exact ⟨_, List.getElem?_eq_getElem h2, by rw [h1]; exact hself x hx⟩

/-- in a valid partition `x ∈ classes[k]` iff `lookup[x] = k` -/
theorem IsPart.mem_iff {n : Nat} {s : PState} (h : IsPart n s) (x : Nat) (hx : x < n) (k : Nat) (hk : k < s.classes.length) :
    x ∈ s.classes[k] ↔ s.lookup.getD x 0 = k := by
  obtain ⟨c, h1, h2⟩ := h.look x hx
  obtain ⟨h3, h4⟩ := List.getElem?_eq_some_iff.1 h1
  constructor
  · intro hm
    by_contra hne
    have hd := List.pairwise_iff_getElem.1 h.disj
    have : Disjoint s.classes[s.lookup.getD x 0] s.classes[k] := by
      rcases Nat.lt_or_gt_of_ne hne with hl | hl
      · exact hd _ _ h3 hk hl
      · exact (hd _ _ hk h3 hl).symm
    exact Finset.disjoint_left.1 this (h4 ▸ h2) hm
  · intro e; subst e; rw [h4]; exact h2

/-! ## Equality -/

/-- `f` records `lookup₁[i] ↦ lookup₂[i]` for the processed `i` -/
theorem eq_fold_spec (a b : PState) (m : Nat) (L : List Nat) (f : List (Option Nat)) (hf : f.length = m)
    (hL : ∀ i ∈ L, a.lookup.getD i 0 < m) :
    ((L.foldlM (PState.eqStep a b) f).isSome = true) ↔
    (∀ i ∈ L, ∀ e, f.getD (a.lookup.getD i 0) none = some e → e = b.lookup.getD i 0) ∧
    (∀ i ∈ L, ∀ j ∈ L, a.lookup.getD i 0 = a.lookup.getD j 0 → b.lookup.getD i 0 = b.lookup.getD j 0) := by
  induction L generalizing f with
  | nil => simp
  | cons i t ih =>
    rw [List.foldlM_cons, PState.eqStep]
    have hi := hL i (by simp)
    rcases hfi : f.getD (a.lookup.getD i 0) none with _ | e
    · simp only
      change (List.foldlM (PState.eqStep a b) (f.set (a.lookup.getD i 0) (some (b.lookup.getD i 0))) t).isSome = true ↔ _
      rw [ih _ (by simpa using hf) fun j hj => hL j (by simp [hj])]
      have hset : ∀ k, k < m → (f.set (a.lookup.getD i 0) (some (b.lookup.getD i 0))).getD k none =
          if k = a.lookup.getD i 0 then some (b.lookup.getD i 0) else f.getD k none := by
        intro k hk
        rw [List.getD_eq_getElem _ _ (by simpa [hf] using hk)]
        split
        · rename_i h; subst h; simp
        · rename_i h
          rw [List.getElem_set_ne (fun h' => h h'.symm)]
          exact (List.getD_eq_getElem f none (by rw [hf]; exact hk)).symm
      constructor
      · rintro ⟨h1, h2⟩
        have key : ∀ j ∈ t, a.lookup.getD j 0 = a.lookup.getD i 0 → b.lookup.getD i 0 = b.lookup.getD j 0 := by
          intro j hj hji
          apply h1 j hj
          rw [hset _ (hL j (by simp [hj])), if_pos hji]
        refine ⟨?_, ?_⟩
        · intro j hj e he
          rcases List.mem_cons.1 hj with rfl | hj
          · rw [hfi] at he; simp at he
          · by_cases hji : a.lookup.getD j 0 = a.lookup.getD i 0
            · rw [hji, hfi] at he; simp at he
            · apply h1 j hj
              rw [hset _ (hL j (by simp [hj])), if_neg hji, he]
        · intro j hj k hk hjk
          rcases List.mem_cons.1 hj with rfl | hj' <;> rcases List.mem_cons.1 hk with rfl | hk'
          · rfl
          · exact key k hk' hjk.symm
          · exact (key j hj' hjk).symm
          · exact h2 j hj' k hk' hjk
      · rintro ⟨h1, h2⟩
        refine ⟨?_, fun j hj k hk => h2 j (by simp [hj]) k (by simp [hk])⟩
        intro j hj e he
        rw [hset _ (hL j (by simp [hj]))] at he
        split at he
        · rename_i hji
          simp only [Option.some.injEq] at he
          rw [← he]
          exact h2 i (by simp) j (by simp [hj]) hji.symm
        · exact h1 j (by simp [hj]) e he
    · simp only
      by_cases hne : e = b.lookup.getD i 0
      · rw [if_neg (by simpa using hne)]
        change (List.foldlM (PState.eqStep a b) f t).isSome = true ↔ _
        rw [ih f hf fun j hj => hL j (by simp [hj])]
        subst hne
        constructor
        · rintro ⟨h1, h2⟩
          have key : ∀ j ∈ t, a.lookup.getD j 0 = a.lookup.getD i 0 → b.lookup.getD i 0 = b.lookup.getD j 0 := by
            intro j hj hji
            apply h1 j hj
            rw [hji, hfi]
          refine ⟨?_, ?_⟩
          · intro j hj e he
            rcases List.mem_cons.1 hj with rfl | hj
            · rw [hfi] at he; simpa using he.symm
            · exact h1 j hj e he
          · intro j hj k hk hjk
            rcases List.mem_cons.1 hj with rfl | hj' <;> rcases List.mem_cons.1 hk with rfl | hk'
            · rfl
            · exact key k hk' hjk.symm
            · exact (key j hj' hjk).symm
            · exact h2 j hj' k hk' hjk
        · rintro ⟨h1, h2⟩
          exact ⟨fun j hj => h1 j (by simp [hj]), fun j hj k hk => h2 j (by simp [hj]) k (by simp [hk])⟩
      · rw [if_pos (by simpa using hne)]
        simp only [Option.bind_eq_bind, Option.bind_none, Option.isSome_none, Bool.false_eq_true, false_iff]
        rintro ⟨h1, -⟩
        exact hne (h1 i (by simp) e hfi)

theorem eq_spec (n : Nat) (a b : PState) (ha : IsPart n a) (hb : IsPart n b) :
    PState.eq n a b = true ↔ ∀ x y, x < n → y < n → (a.lookup.getD x 0 = a.lookup.getD y 0 ↔ b.lookup.getD x 0 = b.lookup.getD y 0) := by
  have look_lt : ∀ {s : PState}, IsPart n s → ∀ x, x < n → s.lookup.getD x 0 < s.classes.length := by
    intro s hs x hx
    obtain ⟨c, h1, -⟩ := hs.look x hx
    exact (List.getElem?_eq_some_iff.1 h1).1
  have surj : ∀ {s : PState}, IsPart n s → ∀ k, k < s.classes.length → ∃ x, x < n ∧ s.lookup.getD x 0 = k := by
    intro s hs k hk
    obtain ⟨x, hx⟩ := hs.nonempty _ (List.getElem_mem hk)
    have hxn := (hs.cover x).1 ⟨_, List.getElem_mem hk, hx⟩
    exact ⟨x, hxn, (hs.mem_iff x hxn k hk).1 hx⟩
  unfold PState.eq
  split
  · rename_i hne
    simp only [Bool.false_eq_true, false_iff]
    intro h
    apply hne
    -- the equivalence gives a bijection between block indices
    have key : ∀ {s t : PState}, IsPart n s → IsPart n t → 
        (∀ x y, x < n → y < n → (s.lookup.getD x 0 = s.lookup.getD y 0 ↔ t.lookup.getD x 0 = t.lookup.getD y 0)) →
        s.classes.length ≤ t.classes.length := by
      intro s t hs ht h
      choose! g hg1 hg2 using fun k (hk : k < s.classes.length) => surj hs k hk
      have : ((Finset.range s.classes.length).image fun k => t.lookup.getD (g k) 0).card = s.classes.length := by
        rw [Finset.card_image_of_injOn, Finset.card_range]
        intro k hk l hl e
        rw [Finset.coe_range, Set.mem_Iio] at hk hl
        simp only at e
        rw [← h _ _ (hg1 k hk) (hg1 l hl), hg2 k hk, hg2 l hl] at e
        exact e
      rw [← this]
      calc _ ≤ (Finset.range t.classes.length).card := by
            apply Finset.card_le_card
            intro k hk
            rw [Finset.mem_image] at hk
            obtain ⟨l, hl, rfl⟩ := hk
            rw [Finset.mem_range] at hl ⊢
            exact look_lt ht _ (hg1 l hl)
        _ = _ := Finset.card_range _
    exact le_antisymm (key ha hb h) (key hb ha fun x y hx hy => (h x y hx hy).symm)
  · rename_i hlen
    push Not at hlen
    rw [eq_fold_spec a b a.classes.length (List.range n) _ (by simp)
      (fun i hi => look_lt ha i (List.mem_range.1 hi))]
    simp only [List.mem_range]
    have hrep : ∀ k, (List.replicate a.classes.length (none : Option Nat)).getD k none = none := by
      intro k
      rw [List.getD_eq_getElem?_getD, List.getElem?_replicate]
      split <;> rfl
    constructor
    · rintro ⟨-, h⟩
      -- map between block indices is surjective between equal-size sets, hence injective
      choose! g hg1 hg2 using fun k (hk : k < a.classes.length) => surj ha k hk
      have hmap : ∀ x, x < n → b.lookup.getD x 0 = b.lookup.getD (g (a.lookup.getD x 0)) 0 := by
        intro x hx
        exact h x hx _ (hg1 _ (look_lt ha x hx)) (hg2 _ (look_lt ha x hx)).symm
      have hsurj : Finset.range b.classes.length ⊆ (Finset.range a.classes.length).image fun k => b.lookup.getD (g k) 0 := by
        intro k hk
        rw [Finset.mem_range] at hk
        obtain ⟨x, hx, rfl⟩ := surj hb k hk
        rw [Finset.mem_image]
        exact ⟨a.lookup.getD x 0, Finset.mem_range.2 (look_lt ha x hx), (hmap x hx).symm⟩
      have hcard : ((Finset.range a.classes.length).image fun k => b.lookup.getD (g k) 0).card = (Finset.range a.classes.length).card := by
        apply le_antisymm Finset.card_image_le
        have := Finset.card_le_card hsurj
        rw [Finset.card_range, ← hlen] at this
        rwa [Finset.card_range]
      have hinj := Finset.injOn_of_card_image_eq hcard
      intro x y hx hy
      refine ⟨h x hx y hy, fun e => ?_⟩
      rw [hmap x hx, hmap y hy] at e
      exact hinj (by simpa using look_lt ha x hx) (by simpa using look_lt ha y hy) e
    · intro h
      refine ⟨?_, fun i hi j hj => (h i j hi hj).1⟩
      intro i _ e he
      rw [hrep] at he; simp at he

end Verif.Table
