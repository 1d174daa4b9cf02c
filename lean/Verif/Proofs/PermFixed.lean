import Verif.Proofs.PermCycles

namespace Verif.Perm

theorem cycleNew_go (cyc : List Nat) (N : Nat) : ∀ (l : List Nat) (seen : List Nat) (present : List Bool), present.length = N →
    (∀ i < N, present[i]? = some (decide (i ∈ seen))) → (∀ i ∈ l, i < N) →
    Fixed.cycleNew.go cyc present l = some (if l.Nodup ∧ ∀ i ∈ l, i ∉ seen then some cyc else none) := by
  intro l
  induction l with
  | nil => intro seen present _ _ _; simp [Fixed.cycleNew.go]
  | cons a t ih =>
    intro seen present hlen hpr hl
    rw [Fixed.cycleNew.go, hpr a (hl a (by simp))]
    by_cases ha : a ∈ seen
    · simp [ha]
    · simp only [ha, decide_false]
      rw [ih (a :: seen) _ (by simpa using hlen) ?_ (fun i hi => hl i (by simp [hi]))]
      · congr 1
        have : (t.Nodup ∧ ∀ i ∈ t, i ∉ a :: seen) ↔ ((a :: t).Nodup ∧ ∀ i ∈ a :: t, i ∉ seen) := by
          constructor
          · rintro ⟨h1, h2⟩
            refine ⟨List.nodup_cons.2 ⟨fun hat => h2 a hat (by simp), h1⟩, ?_⟩
            intro i hi
            rcases List.mem_cons.1 hi with rfl | hi
            · exact ha
            · intro hs; exact h2 i hi (by simp [hs])
          · rintro ⟨h1, h2⟩
            rw [List.nodup_cons] at h1
            refine ⟨h1.2, ?_⟩
            intro i hi hs
            rcases List.mem_cons.1 hs with rfl | hs
            · exact h1.1 hi
            · exact h2 i (by simp [hi]) hs
        by_cases hc : t.Nodup ∧ ∀ i ∈ t, i ∉ a :: seen
        · rw [if_pos hc, if_pos (this.1 hc)]
        · rw [if_neg hc, if_neg (fun h => hc (this.2 h))]
      · intro i hi
        by_cases hai : a = i
        · subst hai; rw [List.getElem?_set_self (by omega)]; simp
        · rw [List.getElem?_set_ne hai, hpr i hi]
          have : i ≠ a := fun h => hai h.symm
          simp [this]

theorem cycleNew_spec (N : Nat) (cyc : List Nat) (h : ∀ i ∈ cyc, i < N) :
    Fixed.cycleNew N cyc = some (if cyc.Nodup then some cyc else none) := by
  unfold Fixed.cycleNew
  rw [cycleNew_go cyc N cyc [] _ (by simp) (by intro i hi; simp [hi]) h]
  simp

theorem fromCycle_fold (N : Nat) (cyc : List Nat) (h : ∀ i ∈ cyc, i < N) (hnd : cyc.Nodup) :
    ∀ k ≤ cyc.length, ∃ r, (List.range k).foldlM (fun (perm : List Nat) i => do
      let c ← cyc[i]?
      let d ← cyc[(i + 1) % cyc.length]?
      if c < perm.length then some (perm.set c d) else none) (List.range N) = some r ∧ r.length = N ∧
      (∀ i (hi : i < k) (hi' : i < cyc.length), r[cyc[i]]? = cyc[(i + 1) % cyc.length]?) ∧
      ∀ x < N, (∀ i (hi : i < k) (hi' : i < cyc.length), cyc[i] ≠ x) → r[x]? = some x := by
  intro k
  induction k with
  | zero => intro _; exact ⟨List.range N, rfl, by simp, by intro i hi; omega, by intro x hx _; simp [hx]⟩
  | succ k ih =>
    intro hk
    obtain ⟨r, e1, e2, e3, e4⟩ := ih (by omega)
    have hk' : k < cyc.length := by omega
    have hmod : (k + 1) % cyc.length < cyc.length := Nat.mod_lt _ (by omega)
    refine ⟨r.set cyc[k] cyc[(k + 1) % cyc.length], ?_, by simpa using e2, ?_, ?_⟩
    · rw [List.range_succ, List.foldlM_append, e1]
      simp only [Option.bind_eq_bind, Option.bind_some, List.foldlM_cons, List.foldlM_nil]
      rw [List.getElem?_eq_getElem hk', List.getElem?_eq_getElem hmod]
      simp only [Option.bind_some]
      rw [if_pos (by rw [e2]; exact h _ (List.getElem_mem hk'))]; rfl
    · intro i hi hi'
      by_cases hik : i = k
      · subst hik
        rw [List.getElem?_set_self (by rw [e2]; exact h _ (List.getElem_mem hk')), List.getElem?_eq_getElem hmod]
      · rw [List.getElem?_set_ne, e3 i (by omega) hi']
        intro he
        exact hik ((hnd.getElem_inj_iff).1 he).symm
    · intro x hx hne
      rw [List.getElem?_set_ne (hne k (by omega) hk')]
      exact e4 x hx fun i hi hi' => hne i (by omega) hi'

theorem fixed_fromCycle_spec (N : Nat) (cyc : List Nat) (h : ∀ i ∈ cyc, i < N) (hnd : cyc.Nodup) :
    ∃ r, Fixed.fromCycle N cyc = some r ∧ r.length = N ∧ IsPermList r ∧ ∀ x, call r x = cyc.formPerm x := by
  obtain ⟨r, e1, e2, e3, e4⟩ := fromCycle_fold N cyc h hnd cyc.length (le_refl _)
  have hcall : ∀ x, call r x = cyc.formPerm x := by
    intro x
    by_cases hx : x ∈ cyc
    · obtain ⟨i, hi, rfl⟩ := List.getElem_of_mem hx
      have hmod : (i + 1) % cyc.length < cyc.length := Nat.mod_lt _ (by omega)
      rw [List.formPerm_apply_getElem _ hnd]
      unfold call
      rw [e3 i hi hi, List.getElem?_eq_getElem hmod]
    · rw [List.formPerm_apply_of_notMem hx]
      by_cases hxN : x < N
      · unfold call
        rw [e4 x hxN]
        intro i hi hi' he
        exact hx (he ▸ List.getElem_mem hi')
      · exact call_of_ge r x (by omega)
  refine ⟨r, e1, e2, ?_, hcall⟩
  apply isPermList_of_nodup
  · rw [List.nodup_iff_injective_getElem]
    intro i j hij
    have := hcall i; have := hcall j
    rw [call_of_lt r _ i.2] at *
    rw [call_of_lt r _ j.2] at *
    apply Fin.ext
    apply cyc.formPerm.injective
    simp only at hij
    rw [← hcall, ← hcall, call_of_lt r _ i.2, call_of_lt r _ j.2]; exact hij
  · intro x hx
    obtain ⟨i, hi, rfl⟩ := List.getElem_of_mem hx
    rw [← call_of_lt r i hi, hcall, e2]
    by_cases him : i ∈ cyc
    · exact h _ ((List.formPerm_mem_iff_mem).2 him)
    · rw [List.formPerm_apply_of_notMem him]; omega

theorem fixed_compose_spec (N : Nat) (a b : List Nat) (ha : IsPermList a) (hb : IsPermList b) (hal : a.length = N) (hbl : b.length = N) :
    ∃ r, Fixed.compose a b = some r ∧ r.length = N ∧ IsPermList r ∧ ∀ x, call r x = call a (call b x) := by
  have h1 : Fixed.compose a b = some (b.map (call a)) := by
    apply Verif.Sets.mapM_some_of
    intro i hi
    have : i < a.length := by rw [hal, ← hbl]; exact (hb.mem i).1 hi
    rw [List.getElem?_eq_getElem this, call_of_lt a i this]
  refine ⟨_, h1, by simpa using hbl, ?_, ?_⟩
  · apply isPermList_of_nodup
    · exact hb.nodup.map (call_injective a ha)
    · intro x hx
      rw [List.mem_map] at hx
      obtain ⟨y, hy, rfl⟩ := hx
      have := (hb.mem y).1 hy
      rw [List.length_map]
      exact call_lt a ha _ _ (by omega) (by omega)
  · intro x
    by_cases hx : x < N
    · rw [call_of_lt _ x (by simp; omega), call_of_lt b x (by omega)]; simp
    · rw [call_of_ge _ x (by simp; omega), call_of_ge b x (by omega), call_of_ge a x (by omega)]

theorem range_perm (N : Nat) : IsPermList (List.range N) := by unfold IsPermList; simp

theorem call_range (N x : Nat) : call (List.range N) x = x := by
  unfold call
  by_cases h : x < N
  · simp [h]
  · rw [List.getElem?_eq_none (by simp; omega)]

theorem composeList_spec (N : Nat) (ps : List (List Nat)) (hs : List (Equiv.Perm ℕ))
    (h : List.Forall₂ (fun p σ => IsPermList p ∧ p.length = N ∧ ∀ x, call p x = σ x) ps hs) :
    ∃ r, Fixed.composeList N ps = some r ∧ r.length = N ∧ IsPermList r ∧ ∀ x, call r x = hs.prod x := by
  have key : ∀ (ps : List (List Nat)) (hs : List (Equiv.Perm ℕ)) (acc : List Nat) (σ : Equiv.Perm ℕ), 
      List.Forall₂ (fun p σ => IsPermList p ∧ p.length = N ∧ ∀ x, call p x = σ x) ps hs →
      IsPermList acc → acc.length = N → (∀ x, call acc x = σ x) →
      ∃ r, ps.foldlM Fixed.compose acc = some r ∧ r.length = N ∧ IsPermList r ∧ ∀ x, call r x = (σ * hs.prod) x := by
    intro ps
    induction ps with
    | nil =>
      intro hs acc σ h h1 h2 h3
      cases h
      exact ⟨acc, rfl, h2, h1, by simpa using h3⟩
    | cons p ps ih =>
      intro hs acc σ h h1 h2 h3
      cases h with
      | cons hp ht =>
        obtain ⟨r, e1, e2, e3, e4⟩ := fixed_compose_spec N acc p h1 hp.1 h2 hp.2.1
        rw [List.foldlM_cons, e1]
        rename_i τ hs'
        obtain ⟨r', f1, f2, f3, f4⟩ := ih hs' r (σ * τ) ht e3 e2 (by
          intro x; rw [e4, hp.2.2, h3]; rfl)
        exact ⟨r', f1, f2, f3, by intro x; rw [f4, List.prod_cons, mul_assoc]⟩
  obtain ⟨r, e1, e2, e3, e4⟩ := key ps hs (List.range N) 1 h (range_perm N) (by simp) (by intro x; rw [call_range]; rfl)
  exact ⟨r, e1, e2, e3, by simpa using e4⟩

end Verif.Perm
