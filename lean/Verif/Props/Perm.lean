import Verif.Proofs.PermFixed

/-!
# Property theorems for permutations (C06–C10)

Specifications: functions `ℕ → ℕ`, Mathlib's `Equiv.Perm`, `Equiv.Perm.sign`, `List.formPerm` (the permutation sending each entry
of a list to the next, cyclically).
-/

namespace Verif.Props.Perm

open Verif.Perm

/-- The values of type `Permutation` a client can build with the API. -/
inductive Value : List Nat → Prop
  | new (v p : List Nat) : Permutation.new v = some p → Value p
  | identity : Value Permutation.identity
  | inverse (p q : List Nat) : Value p → Permutation.inverse p = some q → Value q
  | compose (p q : List Nat) : Value p → Value q → Value (Permutation.compose p q)
  | ofFixed (v w p : List Nat) : Fixed.new v = some w → Verif.Perm.ofFixed w = some p → Value p

theorem ofFixed_eq (w : List Nat) : Verif.Perm.ofFixed w = some (reduced w) := by
  unfold Verif.Perm.ofFixed
  rw [Verif.Sets.mapM_some_of (g := call w)]
  · have : (List.range w.length).map (call w) = w := by
      apply List.ext_getElem (by simp)
      intro i h1 h2
      simp [call_of_lt w i h2]
    rw [this]; rfl
  · intro i hi
    have : i < w.length := List.mem_range.1 hi
    unfold Fixed.call
    rw [call_of_lt w i this, List.getElem?_eq_getElem this]

theorem Value.inv {p : List Nat} (h : Value p) : IsPermList p ∧ Canonical p := by
  induction h with
  | new v p h =>
    unfold Permutation.new at h
    split at h
    · rename_i hc
      simp only [Option.some.injEq] at h
      subst h
      exact ⟨reduced_perm v ((checkPerm_iff v).1 hc), reduced_canonical v⟩
    · simp at h
  | identity => exact ⟨by simp [IsPermList, Permutation.identity], by intro x hx; simp [Permutation.identity] at hx⟩
  | inverse p q _ h ih =>
    obtain ⟨r, e1, e2, e3, -⟩ := inverseRaw_spec p ih.1
    unfold Permutation.inverse at h
    rw [e1] at h
    simp only [Option.map_some, Option.some.injEq] at h
    subst h
    exact ⟨reduced_perm r e3, reduced_canonical r⟩
  | compose p q _ _ ih1 ih2 =>
    obtain ⟨h1, h2, -⟩ := compose_spec p q ih1.1 ih2.1
    exact ⟨h1, h2⟩
  | ofFixed v w p h1 h2 =>
    rw [ofFixed_eq] at h2
    simp only [Option.some.injEq] at h2
    subst h2
    unfold Fixed.new at h1
    split at h1
    · rename_i hc
      simp only [Option.some.injEq] at h1
      subst h1
      exact ⟨reduced_perm v ((checkPerm_iff v).1 hc), reduced_canonical v⟩
    · simp at h1

/-! ## C06 -/

/-- C06: `Permutation::new(v)` succeeds iff `v` is a rearrangement of `0..len(v)`, and then `call` is `v` extended by the identity. -/
theorem C06_new (v : List Nat) :
    ((Permutation.new v).isSome ↔ v.Perm (List.range v.length)) ∧
    ∀ p, Permutation.new v = some p → ∀ x, call p x = if h : x < v.length then v[x] else x := by
  constructor
  · unfold Permutation.new
    have := checkPerm_iff v
    unfold IsPermList at this
    split
    · rename_i h; simp [← this, h]
    · rename_i h; simp [← this, h]
  · intro p hp x
    unfold Permutation.new at hp
    split at hp
    · simp only [Option.some.injEq] at hp
      subst hp
      rw [call_reduced]
      split
      · rename_i h; exact call_of_lt v x h
      · exact call_of_ge v x (by omega)
    · simp at hp

/-- C06: equality of API values (derived `==`, hence also hashing, compares the stored vectors) is equality as functions. -/
theorem C06_eq_iff (p q : List Nat) (hp : Value p) (hq : Value q) : p = q ↔ ∀ x, call p x = call q x :=
  ⟨fun h _ => h ▸ rfl, eq_of_call_eq p q hp.inv.2 hq.inv.2⟩

example : Value [1, 2, 0] ∧ Permutation.new [1, 2, 0, 3] = some [1, 2, 0] :=
  ⟨.new [1, 2, 0, 3] _ (by decide), by decide⟩

/-! ## C07 -/

/-- C07: `compose` composes functions. -/
theorem C07_compose (p q : List Nat) (hp : Value p) (hq : Value q) (x : Nat) :
    call (Permutation.compose p q) x = call p (call q x) := (compose_spec p q hp.inv.1 hq.inv.1).2.2.1 x

/-- C07: `inverse` never panics and undoes `call` on both sides. -/
theorem C07_inverse (p : List Nat) (hp : Value p) :
    ∃ q, Permutation.inverse p = some q ∧ Value q ∧ (∀ x, call q (call p x) = x) ∧ ∀ x, call p (call q x) = x := by
  obtain ⟨r, e1, e2, e3, e4, e5⟩ := inverseRaw_spec p hp.inv.1
  have : Permutation.inverse p = some (reduced r) := by unfold Permutation.inverse; rw [e1]; rfl
  exact ⟨_, this, .inverse p _ hp this, fun x => by rw [call_reduced, e4], fun x => by rw [call_reduced, e5]⟩

/-- C07: the group laws hold as equalities of values. -/
theorem C07_group_laws (p q r : List Nat) (hp : Value p) (hq : Value q) (hr : Value r) :
    Permutation.compose (Permutation.compose p q) r = Permutation.compose p (Permutation.compose q r) ∧
    Permutation.compose Permutation.identity p = p ∧ Permutation.compose p Permutation.identity = p ∧
    (∃ i, Permutation.inverse p = some i ∧ Permutation.compose p i = Permutation.identity ∧
      Permutation.compose i p = Permutation.identity) ∧
    ∀ x, call Permutation.identity x = x := by
  have hid : ∀ x, call Permutation.identity x = x := fun x => rfl
  refine ⟨?_, ?_, ?_, ?_, hid⟩
  · rw [C06_eq_iff _ _ (.compose _ _ (.compose _ _ hp hq) hr) (.compose _ _ hp (.compose _ _ hq hr))]
    intro x
    rw [C07_compose _ _ (.compose _ _ hp hq) hr, C07_compose _ _ hp hq, C07_compose _ _ hp (.compose _ _ hq hr), C07_compose _ _ hq hr]
  · rw [C06_eq_iff _ _ (.compose _ _ .identity hp) hp]
    intro x; rw [C07_compose _ _ .identity hp, hid]
  · rw [C06_eq_iff _ _ (.compose _ _ hp .identity) hp]
    intro x; rw [C07_compose _ _ hp .identity, hid]
  · obtain ⟨i, h1, h2, h3, h4⟩ := C07_inverse p hp
    refine ⟨i, h1, ?_, ?_⟩
    · rw [C06_eq_iff _ _ (.compose _ _ hp h2) .identity]
      intro x; rw [C07_compose _ _ hp h2, h4, hid]
    · rw [C06_eq_iff _ _ (.compose _ _ h2 hp) .identity]
      intro x; rw [C07_compose _ _ h2 hp, h3, hid]

/-- The values of type `Permutation<N>` a client can build. -/
inductive FixedValue (N : Nat) : List Nat → Prop
  | new (v p : List Nat) : v.length = N → Fixed.new v = some p → FixedValue N p
  | identity : FixedValue N (Fixed.identity N)
  | inverse (p q : List Nat) : FixedValue N p → Fixed.inverse p = some q → FixedValue N q
  | compose (p q r : List Nat) : FixedValue N p → FixedValue N q → Fixed.compose p q = some r → FixedValue N r
  | tryFrom (v p : List Nat) : Value v → Fixed.tryFrom N v = some p → FixedValue N p

theorem FixedValue.inv {N : Nat} {p : List Nat} (h : FixedValue N p) : IsPermList p ∧ p.length = N := by
  induction h with
  | new v p hl h =>
    unfold Fixed.new at h
    split at h
    · rename_i hc
      cases h
      exact ⟨(checkPerm_iff v).1 hc, hl⟩
    · cases h
  | identity => exact ⟨range_perm N, by simp [Fixed.identity]⟩
  | inverse p q _ h ih =>
    obtain ⟨r, e1, e2, e3, -⟩ := inverseRaw_spec p ih.1
    unfold Fixed.inverse at h
    rw [e1] at h; cases h
    exact ⟨e3, by rw [e2, ih.2]⟩
  | compose p q r _ _ h ihp ihq =>
    obtain ⟨c, c1, c2, c3, -⟩ := fixed_compose_spec N p q ihp.1 ihq.1 ihp.2 ihq.2
    rw [c1] at h; cases h
    exact ⟨c3, c2⟩
  | tryFrom v p hv h =>
    unfold Fixed.tryFrom at h
    split at h
    · cases h
    · cases h
      rename_i hl
      refine ⟨map_perm N _ (call_injective v hv.inv.1) fun i hi => call_lt v hv.inv.1 N i (by omega) hi, by simp⟩

/-- C06 for `Permutation<N>`: `new(v)` (with `v : [usize; N]`) succeeds iff `v` is a rearrangement of `0..N`, and then keeps `v`. -/
theorem C06_fixed_new (v : List Nat) : ((Fixed.new v).isSome ↔ v.Perm (List.range v.length)) ∧ ∀ p, Fixed.new v = some p → p = v := by
  have := checkPerm_iff v
  unfold IsPermList at this
  unfold Fixed.new
  constructor
  · split
    · rename_i h; simp [← this, h]
    · rename_i h; simp [← this, h]
  · intro p hp
    split at hp
    · exact (Option.some.inj hp).symm
    · cases hp

/-- C06: `Permutation<N>::try_from(p)` succeeds iff `p` fixes every point `≥ N`, and then is the same function on `0..N`; the conversion back
never panics and gives `p` again. -/
theorem C06_try_from (N : Nat) (p : List Nat) (hp : Value p) :
    ((Fixed.tryFrom N p).isSome ↔ ∀ x, N ≤ x → call p x = x) ∧
    ∀ q, Fixed.tryFrom N p = some q → (∀ x, x < N → Fixed.call q x = some (call p x)) ∧ (∀ x, N ≤ x → Fixed.call q x = none) ∧
      Verif.Perm.ofFixed q = some p := by
  have hcan := hp.inv.2
  constructor
  · unfold Fixed.tryFrom
    split
    · rename_i h
      simp only [Option.isSome_none, Bool.false_eq_true, false_iff]
      intro hfix
      -- the last entry of a canonical permutation moves
      have hne : p ≠ [] := by rintro rfl; simp at h
      have h1 : (p.getLast hne) = p.length - 1 := by
        have := hfix (p.length - 1) (by omega)
        rw [call_of_lt p _ (by omega)] at this
        rw [List.getLast_eq_getElem, this]
      have h2 := reduced_of_canonical p hcan
      rw [← List.dropLast_append_getLast hne, reduced_append] at h2
      rw [List.dropLast_append_getLast hne, h1] at h2
      have hlen : p.dropLast.length = p.length - 1 := List.length_dropLast
      rw [hlen, if_pos rfl] at h2
      have h3 := reduced_length_le p.dropLast
      rw [h2, hlen] at h3
      omega
    · rename_i h
      simp only [Option.isSome_some, true_iff]
      intro x hx
      exact call_of_ge p x (by omega)
  · intro q hq
    have hq' := hq
    unfold Fixed.tryFrom at hq
    split at hq
    · cases hq
    · rename_i h
      cases hq
      refine ⟨?_, ?_, ?_⟩
      · intro x hx
        unfold Fixed.call
        rw [List.getElem?_eq_getElem (by simpa using hx)]
        simp
      · intro x hx
        unfold Fixed.call
        rw [List.getElem?_eq_none (by simpa using hx)]
      · rw [ofFixed_eq]
        congr 1
        apply eq_of_call_eq _ _ (reduced_canonical _) hcan
        intro x
        rw [call_reduced, call_map_range N (call p) (fun i hi => call_of_ge p i (by omega))]

/-- C07 for `Permutation<N>`: the operations never panic, stay inside the type, and compose, invert and fix functions on `0..N`. -/
theorem C07_fixed (N : Nat) (p q : List Nat) (hp : FixedValue N p) (hq : FixedValue N q) :
    (∃ r, Fixed.compose p q = some r ∧ FixedValue N r ∧ ∀ x, x < N → ∃ y, Fixed.call q x = some y ∧ Fixed.call r x = Fixed.call p y) ∧
    (∃ i, Fixed.inverse p = some i ∧ FixedValue N i ∧ Fixed.compose p i = some (Fixed.identity N) ∧ Fixed.compose i p = some (Fixed.identity N)) ∧
    ∀ x, x < N → Fixed.call (Fixed.identity N) x = some x := by
  have fc : ∀ {a : List Nat}, FixedValue N a → ∀ x, x < N → Fixed.call a x = some (call a x) := by
    intro a ha x hx
    unfold Fixed.call
    rw [call_of_lt a x (by rw [ha.inv.2]; exact hx), List.getElem?_eq_getElem]
  have comp : ∀ {a b : List Nat}, FixedValue N a → FixedValue N b → ∃ r, Fixed.compose a b = some r ∧ FixedValue N r ∧ ∀ x, call r x = call a (call b x) := by
    intro a b ha hb
    obtain ⟨c, c1, c2, c3, c4⟩ := fixed_compose_spec N a b ha.inv.1 hb.inv.1 ha.inv.2 hb.inv.2
    exact ⟨c, c1, .compose _ _ _ ha hb c1, c4⟩
  have ext : ∀ {a b : List Nat}, FixedValue N a → FixedValue N b → (∀ x, call a x = call b x) → a = b := by
    intro a b ha hb h
    apply List.ext_getElem (by rw [ha.inv.2, hb.inv.2])
    intro i h1 h2
    have := h i
    rwa [call_of_lt a i h1, call_of_lt b i h2] at this
  have idc : ∀ x, call (Fixed.identity N) x = x := call_range N
  refine ⟨?_, ?_, fun x hx => by rw [fc .identity x hx, idc]⟩
  · obtain ⟨r, r1, r2, r3⟩ := comp hp hq
    refine ⟨r, r1, r2, fun x hx => ⟨_, fc hq x hx, ?_⟩⟩
    rw [fc r2 x hx, r3, fc hp _ (call_lt q hq.inv.1 N x hq.inv.2.le hx)]
  · obtain ⟨i, e1, e2, e3, e4, e5⟩ := inverseRaw_spec p hp.inv.1
    have hi : FixedValue N i := .inverse p i hp e1
    refine ⟨i, e1, hi, ?_, ?_⟩
    · obtain ⟨r, r1, r2, r3⟩ := comp hp hi
      rw [r1, ext r2 .identity fun x => by rw [r3, e5, idc]]
    · obtain ⟨r, r1, r2, r3⟩ := comp hi hp
      rw [r1, ext r2 .identity fun x => by rw [r3, e4, idc]]

example : FixedValue 4 [1, 2, 0, 3] := .tryFrom [1, 2, 0] _ (.new [1, 2, 0, 3] _ (by decide)) (by decide)

/-! ## C08 -/

/-- C08: `sign` is `Flip` iff the permutation is odd: for every `m` and every `σ : Perm (Fin m)` that the value denotes (acts as `σ` on
`0..m` and fixes everything from `m` on), `sign p` is the sign of `σ`. -/
theorem C08_sign (p : List Nat) (hp : Value p) (m : Nat) (σ : Equiv.Perm (Fin m)) (hσ : ∀ i : Fin m, (σ i).val = call p i)
    (hfix : ∀ x, m ≤ x → call p x = x) :
    (sign p = .flip ↔ Equiv.Perm.sign σ = -1) ∧ (sign p = .identity ↔ Equiv.Perm.sign σ = 1) := by
  have hm : p.length ≤ m := by
    by_contra hlt
    have hpos : p ≠ [] := by rintro rfl; simp at hlt
    have hl := hp.inv.2 _ (List.getLast?_eq_some_getLast hpos)
    have hx := hfix (p.length - 1) (by omega)
    rw [call_of_lt p _ (by omega)] at hx
    rw [List.getLast_eq_getElem] at hl
    omega
  have hs : (sign p).toInt = Equiv.Perm.sign σ := by
    rw [sign_spec p hp.inv.1 m hm]
    congr 1
    ext i
    rw [toFin_val, hσ]
  rw [← hs]
  cases sign p <;> simp [C2.toInt]

/-- C08: `sign` is a homomorphism to `C2`. -/
theorem C08_sign_mul (p q : List Nat) (hp : Value p) (hq : Value q) :
    sign (Permutation.compose p q) = (sign p).compose (sign q) := by
  obtain ⟨h1, h2, h3, h4⟩ := compose_spec p q hp.inv.1 hq.inv.1
  apply C2.toInt_inj
  rw [C2.toInt_compose, sign_spec _ h1 _ h4, sign_spec p hp.inv.1 _ (le_max_left _ q.length),
    sign_spec q hq.inv.1 _ (le_max_right p.length _), ← Equiv.Perm.sign_mul]
  congr 1
  ext i
  rw [toFin_val, h3]
  rfl

/-- C08: a transposition has sign `Flip`. -/
theorem C08_transposition (p : List Nat) (hp : Value p) (a b : Nat) (hab : a ≠ b)
    (h : ∀ x, call p x = if x = a then b else if x = b then a else x) : sign p = .flip := by
  have hm : a < max a b + 1 ∧ b < max a b + 1 := by omega
  have := (C08_sign p hp (max a b + 1) (Equiv.swap ⟨a, hm.1⟩ ⟨b, hm.2⟩) (by
    intro i
    rw [h, Equiv.swap_apply_def]
    by_cases h1 : i = ⟨a, hm.1⟩
    · subst h1; simp
    · by_cases h2 : i = ⟨b, hm.2⟩
      · subst h2
        simp only [h1, if_false, if_true]
        rw [if_neg (fun h => hab h.symm)]
      · rw [if_neg h1, if_neg h2, if_neg (fun h => h1 (Fin.ext h)), if_neg (fun h => h2 (Fin.ext h))]) (by
    intro x hx
    rw [h, if_neg (by omega), if_neg (by omega)])).1
  rw [this]
  apply Equiv.Perm.sign_swap
  intro he
  exact hab (by simpa using he)

example : Value [2, 1, 0] ∧ ∀ x, call [2, 1, 0] x = if x = 0 then 2 else if x = 2 then 0 else x := by
  refine ⟨.new [2, 1, 0] _ (by decide), ?_⟩
  intro x
  match x with
  | 0 => rfl
  | 1 => rfl
  | 2 => rfl
  | x + 3 => simp [call]

/-! ## C09 -/

/-- C09: `disjoint_cycles` terminates without panicking; the cycles have length ≥ 2 and no repeated entry, are pairwise disjoint, contain exactly
the moved points, each entry is sent to the next (cyclically), and their product is the permutation. -/
theorem C09_disjoint_cycles (p : List Nat) (hp : Value p) :
    ∃ cs, disjointCycles p = some cs ∧
      (∀ c ∈ cs, 2 ≤ c.length ∧ c.Nodup) ∧ cs.Pairwise List.Disjoint ∧
      (∀ x, (∃ c ∈ cs, x ∈ c) ↔ call p x ≠ x) ∧
      (∀ c ∈ cs, ∀ i (hi : i < c.length), call p c[i] = c[(i + 1) % c.length]'(Nat.mod_lt _ (by omega))) ∧
      ∀ x, (cs.map List.formPerm).prod x = call p x := by
  have hv := hp.inv.1
  obtain ⟨cs, e1, e2, e3, e4, e5⟩ := cyclesLoop_spec false p hv _ (List.range p.length) [] (le_refl _)
    (by intro y hy; exact List.mem_range.1 hy)
    (by intro y hy; rw [List.mem_range] at hy ⊢; exact call_lt p hv _ _ (le_refl _) hy)
  have hform : ∀ c ∈ cs, ∀ y ∈ c, c.formPerm y = call p y := by
    intro c hc y hy
    obtain ⟨x, hx, rfl, -⟩ := e2 c hc
    exact formPerm_orb p hv x (List.mem_range.1 hx) y hy
  have hnd : ∀ c ∈ cs, c.Nodup := by
    intro c hc
    obtain ⟨x, hx, rfl, -⟩ := e2 c hc
    exact orb_nodup p x
  have hmoved : ∀ x, (∃ c ∈ cs, x ∈ c) ↔ call p x ≠ x := by
    intro x
    constructor
    · rintro ⟨c, hc, hxc⟩
      obtain ⟨y, hy, rfl, hl⟩ := e2 c hc
      have hl' : 2 ≤ (orb p y).length := by simpa using hl
      intro hfix
      rw [List.mem_range] at hy
      apply (orb_length_ge_two p hv y hy).1 hl'
      obtain ⟨k, rfl⟩ := (mem_orb p hv y hy x).1 hxc
      -- f^k y fixed → y fixed
      rw [← Function.iterate_succ_apply' (call p), Function.iterate_succ_apply] at hfix
      exact (call_injective p hv).iterate k hfix
    · intro hne
      have hx : x < p.length := by
        by_contra hc; exact hne (call_of_ge p x (by omega))
      exact e3 x (List.mem_range.2 hx) (Or.inr hne)
  refine ⟨cs, by simpa [disjointCycles] using e1, ?_, e5, hmoved, ?_, ?_⟩
  · intro c hc
    obtain ⟨x, hx, rfl, hl⟩ := e2 c hc
    exact ⟨by simpa using hl, orb_nodup p x⟩
  · intro c hc i hi
    rw [← hform c hc _ (List.getElem_mem hi), List.formPerm_apply_getElem _ (hnd c hc)]
  · intro x
    rw [formPerm_prod p cs e5 hform]
    split
    · rfl
    · rename_i hno
      rw [hmoved] at hno
      push Not at hno
      exact hno.symm

/-- C09: `cycle_shape` is the sorted list of the lengths of those cycles. -/
theorem C09_cycle_shape (p : List Nat) (hp : Value p) :
    ∃ cs s, disjointCycles p = some cs ∧ cycleShape p = some s ∧ s.Perm (cs.map List.length) ∧ s.Pairwise (· ≤ ·) := by
  obtain ⟨cs, h, -⟩ := C09_disjoint_cycles p hp
  refine ⟨cs, (cs.map List.length).mergeSort, h, by simp [cycleShape, h], List.mergeSort_perm _ _, ?_⟩
  have := List.pairwise_mergeSort (le := fun (a b : Nat) => decide (a ≤ b)) (by simp; omega) (by simp; omega) (cs.map List.length)
  simpa using this

/-- C09 for `Permutation<N>`: same, but fixed points are listed as 1-cycles, so every point `< N` occurs in exactly one cycle. -/
theorem C09_fixed_disjoint_cycles (v p : List Nat) (hp : Fixed.new v = some p) :
    ∃ cs, Fixed.disjointCycles p = some cs ∧ (∀ c ∈ cs, c.Nodup) ∧ cs.Pairwise List.Disjoint ∧
      (∀ x, (∃ c ∈ cs, x ∈ c) ↔ x < p.length) ∧ ∀ x, (cs.map List.formPerm).prod x = call p x := by
  have hv : IsPermList p := by
    unfold Fixed.new at hp
    split at hp
    · rename_i hc; simp only [Option.some.injEq] at hp; subst hp; exact (checkPerm_iff v).1 hc
    · simp at hp
  obtain ⟨cs, e1, e2, e3, e4, e5⟩ := cyclesLoop_spec true p hv _ (List.range p.length) [] (le_refl _)
    (by intro y hy; exact List.mem_range.1 hy)
    (by intro y hy; rw [List.mem_range] at hy ⊢; exact call_lt p hv _ _ (le_refl _) hy)
  have hform : ∀ c ∈ cs, ∀ y ∈ c, c.formPerm y = call p y := by
    intro c hc y hy
    obtain ⟨x, hx, rfl, -⟩ := e2 c hc
    exact formPerm_orb p hv x (List.mem_range.1 hx) y hy
  have hcov : ∀ x, (∃ c ∈ cs, x ∈ c) ↔ x < p.length := by
    intro x
    constructor
    · rintro ⟨c, hc, hx⟩; exact List.mem_range.1 (e4 c hc x hx)
    · intro hx; exact e3 x (List.mem_range.2 hx) (Or.inl rfl)
  refine ⟨cs, by simpa [Fixed.disjointCycles] using e1, ?_, e5, hcov, ?_⟩
  · intro c hc
    obtain ⟨x, hx, rfl, -⟩ := e2 c hc
    exact orb_nodup p x
  · intro x
    rw [formPerm_prod p cs e5 hform]
    split
    · rfl
    · rename_i hno
      rw [hcov] at hno
      rw [call_of_ge p x (by omega)]

example : Fixed.new [1, 0, 2] = some [1, 0, 2] := by decide

/-! ## C10 -/

/-- C10, `Permutation<N>`: a cycle with distinct entries below `N` converts to the permutation sending each entry to the next. -/
theorem C10_fixed_from_cycle (N : Nat) (cyc : List Nat) (h : ∀ i ∈ cyc, i < N) (hnd : cyc.Nodup) :
    Fixed.cycleNew N cyc = some (some cyc) ∧
    ∃ r, Fixed.fromCycle N cyc = some r ∧ r.length = N ∧ ∀ x, call r x = cyc.formPerm x := by
  refine ⟨by rw [cycleNew_spec N cyc h, if_pos hnd], ?_⟩
  obtain ⟨r, a, b, -, d⟩ := fixed_fromCycle_spec N cyc h hnd
  exact ⟨r, a, b, d⟩

/-- C10, `Permutation<N>::new_from_cycles`: with all entries below `N`, it is `Err` iff some cycle repeats an entry, and otherwise the product of the
cycles (leftmost applied last). -/
theorem C10_new_from_cycles (N : Nat) (cycles : List (List Nat)) (h : ∀ c ∈ cycles, ∀ i ∈ c, i < N) :
    ((¬ ∀ c ∈ cycles, c.Nodup) → Fixed.newFromCycles N cycles = some none) ∧
    ((∀ c ∈ cycles, c.Nodup) → ∃ r, Fixed.newFromCycles N cycles = some (some r) ∧ r.length = N ∧
      ∀ x, call r x = (cycles.map List.formPerm).prod x) := by
  have hparse : ∀ cs : List (List Nat), (∀ c ∈ cs, ∀ i ∈ c, i < N) →
      Fixed.newFromCycles.parse N cs = some (if ∀ c ∈ cs, c.Nodup then some cs else none) := by
    intro cs
    induction cs with
    | nil => intro _; simp [Fixed.newFromCycles.parse]
    | cons c t ih =>
      intro h
      rw [Fixed.newFromCycles.parse, cycleNew_spec N c (h c (by simp)), ih fun d hd => h d (by simp [hd])]
      by_cases hc : c.Nodup
      · by_cases ht : ∀ c ∈ t, c.Nodup
        · simp only [if_pos hc, if_pos ht]
          rw [if_pos]
          intro d hd
          rcases List.mem_cons.1 hd with rfl | hd
          · exact hc
          · exact ht d hd
        · simp only [if_pos hc, if_neg ht]
          rw [if_neg]
          intro hall; exact ht fun d hd => hall d (by simp [hd])
      · simp only [if_neg hc]
        rw [if_neg]
        intro hall; exact hc (hall c (by simp))
  unfold Fixed.newFromCycles
  rw [hparse cycles h]
  constructor
  · intro hno
    rw [if_neg hno]
  · intro hall
    rw [if_pos hall]
    simp only
    have hconv : ∀ cs : List (List Nat), (∀ c ∈ cs, ∀ i ∈ c, i < N) → (∀ c ∈ cs, c.Nodup) → ∃ ps, cs.mapM (Fixed.fromCycle N) = some ps ∧
        List.Forall₂ (fun p (σ : Equiv.Perm ℕ) => IsPermList p ∧ p.length = N ∧ ∀ x, call p x = σ x) ps (cs.map List.formPerm) := by
      intro cs
      induction cs with
      | nil => intro _ _; exact ⟨[], rfl, by simp⟩
      | cons c t ih =>
        intro h1 h2
        obtain ⟨r, a, b, c', d⟩ := fixed_fromCycle_spec N c (h1 c (by simp)) (h2 c (by simp))
        obtain ⟨ps, e1, e2⟩ := ih (fun d hd => h1 d (by simp [hd])) (fun d hd => h2 d (by simp [hd]))
        refine ⟨r :: ps, ?_, ?_⟩
        · rw [List.mapM_cons, a, e1]; rfl
        · rw [List.map_cons]; exact List.Forall₂.cons ⟨c', b, d⟩ e2
    obtain ⟨ps, e1, e2⟩ := hconv cycles h hall
    obtain ⟨r, f1, f2, -, f4⟩ := composeList_spec N ps _ e2
    exact ⟨r, by rw [e1]; simp [f1], f2, f4⟩

example : ∀ c ∈ [[0, 1, 2], [1, 3]], c.Nodup ∧ ∀ i ∈ c, i < 4 := by decide

/-- C10, violated: for the unsized `Permutation`, the conversion panics for EVERY non-empty cycle (the vector has length `max` instead of `max+1`). -/
theorem C10_unsized_from_cycle_panics (cyc : List Nat) (h : cyc ≠ []) : Verif.Perm.fromCycle cyc = none := by
  obtain ⟨m, hm⟩ : ∃ m, cyc.max? = some m := by
    cases hc : cyc.max? with
    | none => exact absurd (List.max?_eq_none_iff.1 hc) h
    | some m => exact ⟨m, rfl⟩
  have hmem : m ∈ cyc := List.max?_mem hm
  obtain ⟨k, hk, hkm⟩ := List.getElem_of_mem hmem
  unfold Verif.Perm.fromCycle
  simp only [hm, Option.getD_some, Option.map_eq_none_iff]
  have hlen : ∀ (l : List Nat) (perm : List Nat), perm.length = m → k ∈ l → 
      l.foldlM (fun (perm : List Nat) i => do
        let c ← cyc[i]?
        let d ← cycNext cyc m i
        if c < perm.length then some (perm.set c d) else none) perm = none := by
    intro l
    induction l with
    | nil => intro perm _ hk; simp at hk
    | cons i t ih =>
      intro perm hp hkl
      rw [List.foldlM_cons]
      by_cases hik : i = k
      · subst hik
        rw [List.getElem?_eq_getElem hk, hkm]
        simp only [Option.bind_eq_bind, Option.bind_some, hp, lt_irrefl, if_false, Option.bind_none]
        rcases cycNext cyc m i with _ | d <;> rfl
      · have hkt : k ∈ t := by
          rcases List.mem_cons.1 hkl with h | h
          · exact absurd h.symm hik
          · exact h
        rcases cyc[i]? with _ | c
        · rfl
        · rcases hd : cycNext cyc m i with _ | d
          · simp [hd]
          · simp only [Option.bind_eq_bind, Option.bind_some]
            split
            · exact ih _ (by simpa using hp) hkt
            · rfl
  exact hlen _ _ (by simp) (by simpa using hk)

/-- C10: the only cycle that converts is the empty one. -/
theorem C10_unsized_empty : Verif.Perm.fromCycle [] = some [] := by rfl

example : ([0, 1] : List Nat) ≠ [] := by decide

end Verif.Props.Perm
