import Verif.Spec.MultiPoly
import Verif.Proofs.Polynomial

/-!
# Arithmetic of polynomials in several variables
-/

namespace Verif.Rings

/-! ## Monomials -/

theorem monoVal_cons (e : Nat × Nat) (m : Mono) : monoVal (e :: m) = Finsupp.single e.1 e.2 + monoVal m := by
  simp [monoVal]

theorem monoVal_nil : monoVal [] = 0 := by simp [monoVal]

theorem monoVal_append (a b : Mono) : monoVal (a ++ b) = monoVal a + monoVal b := by
  simp [monoVal]

theorem monoVal_perm {a b : Mono} (h : a.Perm b) : monoVal a = monoVal b :=
  (h.map _).sum_eq

theorem monoVal_filter_ne (m : Mono) : monoVal (m.filter fun e => e.2 ≠ 0) = monoVal m := by
  induction m with
  | nil => rfl
  | cons e m ih =>
    by_cases h : e.2 = 0
    · rw [List.filter_cons_of_neg (by simpa using h), ih, monoVal_cons, h, Finsupp.single_zero, zero_add]
    · rw [List.filter_cons_of_pos (by simpa using h), monoVal_cons, monoVal_cons, ih]

theorem monoVal_new (m : Mono) : monoVal (Mono.new m) = monoVal m := by
  rw [Mono.new, monoVal_perm (List.perm_insertionSort _ _), monoVal_filter_ne]

theorem Mono.new_wf {m : Mono} (h : (m.map Prod.fst).Nodup) : (Mono.new m).WF := by
  refine ⟨?_, ?_⟩
  · have hs := List.pairwise_insertionSort (fun a b : Nat × Nat => a.1 ≤ b.1) (m.filter fun e => e.2 ≠ 0)
    have hp := List.perm_insertionSort (fun a b : Nat × Nat => a.1 ≤ b.1) (m.filter fun e => e.2 ≠ 0)
    have hn : ((Mono.new m).map Prod.fst).Nodup :=
      (hp.map Prod.fst).nodup_iff.2 (h.sublist (List.filter_sublist.map _))
    have hn' : (Mono.new m).Pairwise fun a b => a.1 ≠ b.1 := List.pairwise_map.1 hn
    refine (hs.and hn').imp fun h => lt_of_le_of_ne h.1 h.2
  · intro e he
    have := (List.perm_insertionSort _ _).mem_iff.1 he
    simp at this; omega

theorem addEntry_keys {κ β : Type} [DecidableEq κ] (add : β → β → β) (zero : β) (key : κ) (val : β) (l : List (κ × β))
    (h : (l.map Prod.fst).Nodup) :
    ((addEntry add zero key val l).map Prod.fst).Nodup ∧
      ∀ k, k ∈ (addEntry add zero key val l).map Prod.fst ↔ k = key ∨ k ∈ l.map Prod.fst := by
  induction l with
  | nil => simp [addEntry]
  | cons e l ih =>
    obtain ⟨k, x⟩ := e
    simp only [List.map_cons, List.nodup_cons] at h
    obtain ⟨h1, h2⟩ := ih h.2
    rw [addEntry]
    split_ifs with hk
    · subst hk
      refine ⟨by simpa using h, by simp⟩
    · refine ⟨?_, ?_⟩
      · simp only [List.map_cons, List.nodup_cons]
        refine ⟨fun hm => ?_, h1⟩
        rcases (h2 k).1 hm with h' | h'
        · exact hk h'
        · exact h.1 h'
      · intro k'
        simp only [List.map_cons, List.mem_cons, h2]; tauto

theorem addEntry_sum {κ β M : Type} [DecidableEq κ] [AddCommMonoid M] (F : κ → β → M) (add : β → β → β) (zero : β)
    (hadd : ∀ k x y, F k (add x y) = F k x + F k y) (hz : ∀ k, F k zero = 0) (key : κ) (val : β) (l : List (κ × β)) :
    ((addEntry add zero key val l).map fun e => F e.1 e.2).sum = (l.map fun e => F e.1 e.2).sum + F key val := by
  induction l with
  | nil => simp [addEntry, hadd, hz]
  | cons e l ih =>
    obtain ⟨k, x⟩ := e
    rw [addEntry]
    split_ifs with hk
    · subst hk
      simp only [List.map_cons, List.sum_cons, hadd]; abel
    · simp only [List.map_cons, List.sum_cons, ih]; abel

theorem addEntry_mem_key {κ β : Type} [DecidableEq κ] (P : κ → Prop) (add : β → β → β) (zero : β) (key : κ) (val : β)
    (l : List (κ × β)) (hk : P key) (hl : ∀ e ∈ l, P e.1) : ∀ e ∈ addEntry add zero key val l, P e.1 := by
  induction l with
  | nil => simpa [addEntry] using hk
  | cons e l ih =>
    obtain ⟨k, x⟩ := e
    rw [addEntry]
    split_ifs with h
    · subst h
      intro e he
      rcases List.mem_cons.1 he with rfl | he
      · exact hk
      · exact hl _ (List.mem_cons_of_mem _ he)
    · intro e he
      rcases List.mem_cons.1 he with rfl | he
      · exact hl _ (List.mem_cons_self)
      · exact ih (fun e he => hl e (List.mem_cons_of_mem _ he)) e he

/-- The table in `Monomial::mul`. -/
theorem mulFold_spec (b : Mono) (l : Mono) (h : (l.map Prod.fst).Nodup) :
    ((b.foldl (fun l e => addEntry (· + ·) 0 e.1 e.2 l) l).map Prod.fst).Nodup ∧
      monoVal (b.foldl (fun l e => addEntry (· + ·) 0 e.1 e.2 l) l) = monoVal l + monoVal b := by
  induction b generalizing l with
  | nil => exact ⟨h, by simp [monoVal_nil]⟩
  | cons e b ih =>
    obtain ⟨h1, h2⟩ := ih _ (addEntry_keys (· + ·) 0 e.1 e.2 l h).1
    refine ⟨h1, ?_⟩
    rw [List.foldl_cons, h2, monoVal_cons]
    have := addEntry_sum (fun x k => (Finsupp.single x k : ℕ →₀ ℕ)) (· + ·) 0
      (fun k x y => Finsupp.single_add k x y) (fun k => Finsupp.single_zero k) e.1 e.2 l
    rw [show monoVal (addEntry (· + ·) 0 e.1 e.2 l) = monoVal l + Finsupp.single e.1 e.2 from this]
    abel

theorem monoVal_mul (H : HashOrder) (a b : Mono) : monoVal (Mono.mul H a b) = monoVal a + monoVal b := by
  obtain ⟨h1, h2⟩ := mulFold_spec a [] (by simp)
  obtain ⟨_, h3⟩ := mulFold_spec b _ h1
  rw [Mono.mul, monoVal_new, monoVal_perm (H.perm _), h3, h2, monoVal_nil, zero_add]

theorem Mono.mul_wf (H : HashOrder) (a b : Mono) : (Mono.mul H a b).WF := by
  obtain ⟨h1, _⟩ := mulFold_spec a [] (by simp)
  obtain ⟨h2, _⟩ := mulFold_spec b _ h1
  exact Mono.new_wf (((H.perm _).map Prod.fst).nodup_iff.2 h2)

theorem Mono.one_wf : Mono.one.WF := ⟨List.Pairwise.nil, by simp [Mono.one]⟩

theorem monoVal_one : monoVal Mono.one = 0 := monoVal_nil

theorem monoVal_apply (m : Mono) (x : ℕ) : monoVal m x = (m.map fun e => if e.1 = x then e.2 else 0).sum := by
  induction m with
  | nil => simp [monoVal_nil]
  | cons e m ih => simp [monoVal_cons, ih, Finsupp.single_apply]

theorem monoVal_apply_eq_zero {m : Mono} {x : ℕ} (h : ∀ e ∈ m, e.1 ≠ x) : monoVal m x = 0 := by
  rw [monoVal_apply]
  apply List.sum_eq_zero
  simp only [List.mem_map]
  rintro _ ⟨e, he, rfl⟩
  simp [h e he]

theorem Mono.WF.tail {e : Nat × Nat} {m : Mono} (h : Mono.WF (e :: m)) : Mono.WF m :=
  ⟨(List.pairwise_cons.1 h.1).2, fun e he => h.2 e (List.mem_cons_of_mem _ he)⟩

theorem monoVal_head {e : Nat × Nat} {m : Mono} (h : Mono.WF (e :: m)) : monoVal (e :: m) e.1 = e.2 := by
  have : monoVal m e.1 = 0 := monoVal_apply_eq_zero fun f hf => ((List.pairwise_cons.1 h.1).1 f hf).ne'
  rw [monoVal_cons]; simp [this]

theorem monoVal_lt_head {e : Nat × Nat} {m : Mono} (h : Mono.WF (e :: m)) {x : ℕ} (hx : x < e.1) :
    monoVal (e :: m) x = 0 := by
  apply monoVal_apply_eq_zero
  intro f hf
  rcases List.mem_cons.1 hf with rfl | hf
  · exact hx.ne'
  · exact (hx.trans ((List.pairwise_cons.1 h.1).1 f hf)).ne'

theorem monoVal_inj : ∀ {a b : Mono}, a.WF → b.WF → monoVal a = monoVal b → a = b
  | [], [], _, _, _ => rfl
  | [], e :: b, _, hb, h => by
    have := monoVal_head hb
    rw [← h, monoVal_nil] at this
    have := hb.2 e (List.mem_cons_self)
    simp_all
  | e :: a, [], ha, _, h => by
    have := monoVal_head ha
    rw [h, monoVal_nil] at this
    have := ha.2 e (List.mem_cons_self)
    simp_all
  | e :: a, f :: b, ha, hb, h => by
    have hpe := ha.2 e (List.mem_cons_self)
    have hpf := hb.2 f (List.mem_cons_self)
    have he := monoVal_head ha
    have hf := monoVal_head hb
    have hx : e.1 = f.1 := by
      rcases lt_trichotomy e.1 f.1 with hl | hl | hl
      · have := monoVal_lt_head hb hl
        rw [← h, he] at this; omega
      · exact hl
      · have := monoVal_lt_head ha hl
        rw [h, hf] at this; omega
    have hk : e.2 = f.2 := by rw [← he, ← hf, hx, h]
    have hef : e = f := Prod.ext hx hk
    subst hef
    rw [monoVal_cons, monoVal_cons] at h
    rw [monoVal_inj ha.tail hb.tail (add_left_cancel h)]

theorem monoVal_eq_zero {m : Mono} (h : m.WF) : monoVal m = 0 ↔ m = [] :=
  ⟨fun h0 => monoVal_inj h Mono.one_wf (h0.trans monoVal_one.symm), fun h => by rw [h, monoVal_nil]⟩

theorem monoVal_mem {m : Mono} (h : m.WF) {e : Nat × Nat} (he : e ∈ m) : monoVal m e.1 = e.2 := by
  induction m with
  | nil => simp at he
  | cons f m ih =>
    rcases List.mem_cons.1 he with rfl | hm
    · exact monoVal_head h
    · have := (List.pairwise_cons.1 h.1).1 e hm
      rw [monoVal_cons, Finsupp.add_apply, ih h.tail hm, Finsupp.single_eq_of_ne this.ne', zero_add]

theorem monoVal_ne_zero_iff {m : Mono} (h : m.WF) (x : ℕ) : monoVal m x ≠ 0 ↔ x ∈ m.map Prod.fst := by
  constructor
  · intro hx
    by_contra hn
    exact hx (monoVal_apply_eq_zero fun e he h => hn (List.mem_map.2 ⟨e, he, h⟩))
  · intro hx
    obtain ⟨e, he, rfl⟩ := List.mem_map.1 hx
    rw [monoVal_mem h he]
    exact (h.2 e he).ne'

/-- Every exponent vector is denoted by a well-formed monomial. -/
theorem exists_mono (s : ℕ →₀ ℕ) : ∃ m : Mono, m.WF ∧ monoVal m = s := by
  induction s using Finsupp.induction_linear with
  | zero => exact ⟨[], Mono.one_wf, monoVal_nil⟩
  | add f g hf hg =>
    obtain ⟨a, _, rfl⟩ := hf
    obtain ⟨b, _, rfl⟩ := hg
    exact ⟨_, Mono.mul_wf .insertion a b, monoVal_mul _ _ _⟩
  | single x k => exact ⟨Mono.new [(x, k)], Mono.new_wf (by simp), by rw [monoVal_new]; simp [monoVal]⟩

theorem Mono.getVarPow_eq {m : Mono} (h : m.WF) (x : Nat) : Mono.getVarPow m x = monoVal m x := by
  have key : ∀ (m : Mono), m.WF → ∀ k, m.foldl (fun k e => if e.1 = x then e.2 else k) k =
      if x ∈ m.map Prod.fst then monoVal m x else k := by
    intro m
    induction m with
    | nil => intro _ k; simp
    | cons e m ih =>
      intro h k
      rw [List.foldl_cons, ih h.tail]
      by_cases hx : e.1 = x
      · subst hx
        have h0 : e.1 ∉ m.map Prod.fst := by
          intro hm
          obtain ⟨f, hf, hfe⟩ := List.mem_map.1 hm
          exact ((List.pairwise_cons.1 h.1).1 f hf).ne' hfe
        rw [if_neg h0, if_pos rfl, if_pos (by simp), monoVal_head h]
      · have : monoVal (e :: m) x = monoVal m x := by rw [monoVal_cons]; simp [Finsupp.single_eq_of_ne (Ne.symm hx)]
        simp only [hx, if_false, List.map_cons, List.mem_cons, this]
        have hx' : ¬ x = e.1 := fun h => hx h.symm
        split_ifs <;> simp_all
  rw [Mono.getVarPow, key m h]
  split_ifs with hm
  · rfl
  · by_contra hn
    exact hm ((monoVal_ne_zero_iff h x).1 (Ne.symm hn))

theorem Mono.degree_eq (m : Mono) : Mono.degree m = (monoVal m).degree := by
  have key : ∀ (m : Mono) d, m.foldl (fun d e => d + e.2) d = d + (monoVal m).degree := by
    intro m
    induction m with
    | nil => intro d; simp [monoVal_nil]
    | cons e m ih => intro d; rw [List.foldl_cons, ih, monoVal_cons, map_add, Finsupp.degree_single]; omega
  rw [Mono.degree, key, Nat.zero_add]

/-! ## The lexicographic order -/

theorem lexCmp_refl (a : Mono) : Mono.lexCmp a a = .eq := by
  induction a with
  | nil => rfl
  | cons e a ih => obtain ⟨x, i⟩ := e; simp [Mono.lexCmp, ih]

theorem lexCmp_eq_iff (a b : Mono) : Mono.lexCmp a b = .eq ↔ a = b := by
  refine ⟨fun h => ?_, fun h => h ▸ lexCmp_refl a⟩
  induction a generalizing b with
  | nil => cases b with
    | nil => rfl
    | cons => simp [Mono.lexCmp] at h
  | cons e a ih =>
    cases b with
    | nil => simp [Mono.lexCmp] at h
    | cons f b =>
      obtain ⟨x, i⟩ := e
      obtain ⟨y, j⟩ := f
      rw [Mono.lexCmp] at h
      split_ifs at h with h1 h2 h3 h4
      have hx : x = y := by omega
      have hi : i = j := by omega
      rw [ih b h, hx, hi]

theorem lexCmp_swap (a b : Mono) : (Mono.lexCmp a b).swap = Mono.lexCmp b a := by
  induction a generalizing b with
  | nil => cases b <;> rfl
  | cons e a ih =>
    cases b with
    | nil => rfl
    | cons f b =>
      obtain ⟨x, i⟩ := e
      obtain ⟨y, j⟩ := f
      rw [Mono.lexCmp, Mono.lexCmp]
      split_ifs <;> first | rfl | omega | exact ih b

theorem lexCmp_lt_trans {a b c : Mono} (h : Mono.lexCmp a b = .lt) (h' : Mono.lexCmp b c = .lt) :
    Mono.lexCmp a c = .lt := by
  induction a generalizing b c with
  | nil => cases b <;> simp [Mono.lexCmp] at h
  | cons e a ih =>
    cases c with
    | nil => rfl
    | cons g c =>
      cases b with
      | nil => simp [Mono.lexCmp] at h'
      | cons f b =>
        obtain ⟨x, i⟩ := e
        obtain ⟨y, j⟩ := f
        obtain ⟨z, k⟩ := g
        rw [Mono.lexCmp] at h h' ⊢
        split_ifs at h h' ⊢ <;> first | rfl | omega | exact ih h h'

theorem lexCmp_gt_iff (a b : Mono) : Mono.lexCmp a b = .gt ↔ Mono.lexCmp b a = .lt := by
  rw [← lexCmp_swap b a]
  cases Mono.lexCmp b a <;> simp [Ordering.swap]

theorem termLe_iff {α : Type} (s t : α × Mono) : termLe s t ↔ Mono.lexCmp s.2 t.2 = .lt ∨ s.2 = t.2 := by
  rw [termLe, ← lexCmp_eq_iff]
  cases Mono.lexCmp s.2 t.2 <;> simp

instance {α : Type} : Std.Total (termLe (α := α)) := ⟨fun s t => by
  rw [termLe_iff, termLe_iff]
  rcases h : Mono.lexCmp s.2 t.2 with _ | _ | _
  · exact .inl (.inl rfl)
  · exact .inl (.inr ((lexCmp_eq_iff _ _).1 h))
  · exact .inr (.inl ((lexCmp_gt_iff _ _).1 h))⟩

instance {α : Type} : IsTrans (α × Mono) termLe := ⟨fun s t u h h' => by
  rw [termLe_iff] at *
  rcases h with h | h <;> rcases h' with h' | h'
  · exact .inl (lexCmp_lt_trans h h')
  · exact .inl (h' ▸ h)
  · exact .inl (h ▸ h')
  · exact .inr (h.trans h')⟩

end Verif.Rings
