import Verif.Proofs.Table

/-! The class-collecting loop (conjugacy classes, cosets). -/

namespace Verif.Table

theorem foldl_set_spec (k : Nat) (c : List Nat) (l : List Nat) :
    (c.foldl (fun (l : List Nat) y => l.set y k) l).length = l.length ∧
    ∀ x, x < l.length → (c.foldl (fun (l : List Nat) y => l.set y k) l).getD x 0 = if x ∈ c then k else l.getD x 0 := by
  induction c generalizing l with
  | nil => simp
  | cons a t ih =>
    obtain ⟨h1, h2⟩ := ih (l.set a k)
    rw [List.foldl_cons]
    refine ⟨by rw [h1]; simp, ?_⟩
    intro x hx
    rw [h2 x (by simpa using hx)]
    by_cases hxt : x ∈ t
    · simp [hxt]
    · rw [if_neg hxt]
      by_cases hxa : x = a
      · subst hxa
        rw [if_pos (by simp), List.getD_eq_getElem _ _ (by simpa using hx)]
        simp
      · rw [if_neg (by simp [hxa, hxt])]
        rw [List.getD_eq_getElem _ _ (by simpa using hx), List.getD_eq_getElem _ _ hx]
        rw [List.getElem_set_ne (fun h => hxa h.symm)]

/-- What the loop establishes. -/
structure ClassesOf (n : Nat) (cls : Nat → Finset Nat) (s : PState) : Prop where
  len : s.lookup.length = n
  look_lt : ∀ x, x < n → s.lookup.getD x 0 < s.classes.length
  proj : ∀ x, x < n → s.project x = cls x
  mem : ∀ c ∈ s.classes, ∃ x, x < n ∧ c = cls x
  disj : s.classes.Pairwise Disjoint

theorem classLoop_spec (o : Oracle) (n : Nat) (cls : Nat → Finset Nat) (hself : ∀ x, x < n → x ∈ cls x)
    (hsub : ∀ x, x < n → ∀ y ∈ cls x, y < n) (heq : ∀ x, x < n → ∀ y ∈ cls x, cls y = cls x) :
    ∀ (k step : Nat) (missing : Finset Nat) (classes : List (Finset Nat)) (lookup : List Nat), missing.card ≤ k →
      (∀ x ∈ missing, x < n) → lookup.length = n →
      (∀ x, x < n → x ∉ missing → lookup.getD x 0 < classes.length ∧ classes.getD (lookup.getD x 0) ∅ = cls x) →
      (∀ c ∈ classes, ∃ x, x < n ∧ c = cls x) → (∀ c ∈ classes, ∀ y ∈ c, y ∉ missing) → classes.Pairwise Disjoint →
      ∃ s, classLoop o cls step missing classes lookup = some s ∧ ClassesOf n cls s := by
  intro k
  induction k with
  | zero =>
    intro step missing classes lookup hk hmiss hlen hlook hmem hnm hdisj
    have : missing = ∅ := Finset.card_eq_zero.1 (by omega)
    subst this
    refine ⟨⟨classes, lookup⟩, by rw [classLoop, if_pos rfl], hlen, fun x hx => (hlook x hx (by simp)).1,
      fun x hx => (hlook x hx (by simp)).2, hmem, hdisj⟩
  | succ k ih =>
    intro step missing classes lookup hk hmiss hlen hlook hmem hnm hdisj
    by_cases he : missing = ∅
    · subst he
      refine ⟨⟨classes, lookup⟩, by rw [classLoop, if_pos rfl], hlen, fun x hx => (hlook x hx (by simp)).1,
        fun x hx => (hlook x hx (by simp)).2, hmem, hdisj⟩
    · have hp := o.mem step missing (Finset.nonempty_iff_ne_empty.2 he)
      rw [classLoop, if_neg he]
      simp only
      generalize hx0 : o.pick step missing = x0 at *
      have hx0n := hmiss _ hp
      have hx0c := hself _ hx0n
      obtain ⟨l1, l2⟩ := foldl_set_spec classes.length ((cls x0).sort (· ≤ ·)) lookup
      apply ih
      · have : (missing \ cls x0).card < missing.card := by
          apply Finset.card_lt_card
          refine ⟨Finset.sdiff_subset, fun h => ?_⟩
          have := h hp
          rw [Finset.mem_sdiff] at this
          exact this.2 hx0c
        omega
      · intro x hx; exact hmiss x (Finset.sdiff_subset hx)
      · rw [l1, hlen]
      · intro x hx hxm
        rw [l2 x (by rw [hlen]; exact hx)]
        simp only [Finset.mem_sort]
        by_cases hxc : x ∈ cls x0
        · rw [if_pos hxc]
          refine ⟨by simp, ?_⟩
          rw [List.getD_eq_getElem _ _ (by simp)]
          simp [heq x0 hx0n x hxc]
        · rw [if_neg hxc]
          have := hlook x hx (fun h => hxm (Finset.mem_sdiff.2 ⟨h, hxc⟩))
          obtain ⟨t1, t2⟩ := this
          have t3 : lookup.getD x 0 < (classes ++ [cls x0]).length := by rw [List.length_append]; omega
          refine ⟨t3, ?_⟩
          rw [List.getD_eq_getElem _ _ t3, List.getElem_append_left t1]
          rw [List.getD_eq_getElem _ _ t1] at t2
          exact t2
      · intro c hc
        rcases List.mem_append.1 hc with h | h
        · exact hmem c h
        · rw [List.mem_singleton] at h; exact ⟨x0, hx0n, h⟩
      · intro c hc y hy hym
        rw [Finset.mem_sdiff] at hym
        rcases List.mem_append.1 hc with h | h
        · exact hnm c h y hy hym.1
        · rw [List.mem_singleton] at h; subst h; exact hym.2 hy
      · rw [List.pairwise_append]
        refine ⟨hdisj, by simp, ?_⟩
        intro c hc d hd
        rw [List.mem_singleton] at hd
        subst hd
        rw [Finset.disjoint_left]
        intro y hy hy'
        obtain ⟨z, hz, rfl⟩ := hmem c hc
        have h1 : cls z = cls x0 := (heq z hz y hy).symm.trans (heq x0 hx0n y hy')
        rw [h1] at hc
        exact hnm _ hc x0 hx0c hp

theorem classLoop_run (o : Oracle) (n : Nat) (cls : Nat → Finset Nat) (hself : ∀ x, x < n → x ∈ cls x)
    (hsub : ∀ x, x < n → ∀ y ∈ cls x, y < n) (heq : ∀ x, x < n → ∀ y ∈ cls x, cls y = cls x) :
    ∃ s, classLoop o cls 0 (Finset.range n) [] (List.replicate n 0) = some s ∧ ClassesOf n cls s := by
  apply classLoop_spec o n cls hself hsub heq _ _ _ _ _ (le_refl _)
  · simp
  · simp
  · intro x hx h; simp at h; omega
  · simp
  · simp
  · simp

/-- The loop diverges if the class of a picked element never contains anything. -/
theorem classLoop_empty_diverges (o : Oracle) (cls : Nat → Finset Nat) (hcls : ∀ x, cls x = ∅) (step : Nat) (missing : Finset Nat)
    (classes : List (Finset Nat)) (lookup : List Nat) (hm : missing ≠ ∅) : classLoop o cls step missing classes lookup = none := by
  rcases h : classLoop o cls step missing classes lookup with _ | r
  · rfl
  · exfalso
    refine classLoop.partial_correctness o cls (motive := fun _ missing _ _ _ => missing ≠ ∅ → False) ?_ step missing classes lookup r h hm
    intro f ih step missing classes lookup r hr hm
    rw [if_neg hm] at hr
    exact ih _ _ _ _ _ hr (by simpa [hcls] using hm)

section
variable {n : Nat} {cls : Nat → Finset Nat} {s : PState}

theorem ClassesOf.lookup_eq_iff (h : ClassesOf n cls s) (heq : ∀ x, x < n → ∀ y ∈ cls x, cls y = cls x) (hself : ∀ x, x < n → x ∈ cls x)
    (x y : Nat) (hx : x < n) (hy : y < n) : s.lookup.getD x 0 = s.lookup.getD y 0 ↔ y ∈ cls x := by
  constructor
  · intro e
    have h1 := h.proj x hx
    have h2 := h.proj y hy
    unfold PState.project at h1 h2
    rw [e, h2] at h1
    rw [← h1]; exact hself y hy
  · intro hm
    by_contra hne
    have h1 := h.proj x hx
    have h2 := h.proj y hy
    have hd := h.disj
    rw [List.pairwise_iff_getElem] at hd
    have a := h.look_lt x hx
    have b := h.look_lt y hy
    unfold PState.project at h1 h2
    rw [List.getD_eq_getElem _ _ a] at h1
    rw [List.getD_eq_getElem _ _ b] at h2
    have : Disjoint s.classes[s.lookup.getD x 0] s.classes[s.lookup.getD y 0] := by
      rcases Nat.lt_or_gt_of_ne hne with hl | hl
      · exact hd _ _ a b hl
      · exact (hd _ _ b a hl).symm
    rw [h1, h2, heq x hx y hm, disjoint_self] at this
    have hh := hself x hx
    rw [this] at hh
    simp at hh

end

end Verif.Table
