import Verif.Props.Perm
import Verif.Props.GroupTrait
import Mathlib.GroupTheory.Perm.Closure
import Mathlib.GroupTheory.SpecificGroups.Alternating
import Mathlib.Data.Fintype.Perm

/-!
# C45: composition tables of the symmetric and alternating groups

Models `Permutation::symmetric_composition_table` / `alternating_composition_table` (groups/src/permutation.rs:151-179): the trait method
`generated_finite_subgroup_table` at the type `Permutation`, whose values are the lists built by the API (`Value`).
-/

namespace Verif.Props.Perm

open Verif.Perm Verif.Table Verif.GroupTrait

/-- The type `Permutation`: the values the API can build. -/
def PermT : Type := {p : List Nat // Value p}

instance : DecidableEq PermT := inferInstanceAs (DecidableEq {p : List Nat // Value p})

/-- `inverse` on the type (it never fails, `C07_inverse`) -/
noncomputable def PermT.inv (p : PermT) : PermT :=
  ⟨(C07_inverse p.1 p.2).choose, (C07_inverse p.1 p.2).choose_spec.2.1⟩

theorem PermT.inv_eq (p : PermT) : Permutation.inverse p.1 = some p.inv.1 := (C07_inverse p.1 p.2).choose_spec.1

/-- the `Group` implementation for `Permutation` — groups/src/permutation.rs:194-215 -/
noncomputable instance : Group PermT where
  mul a b := ⟨Permutation.compose a.1 b.1, .compose _ _ a.2 b.2⟩
  one := ⟨Permutation.identity, .identity⟩
  inv a := a.inv
  mul_assoc a b c := Subtype.ext (C07_group_laws a.1 b.1 c.1 a.2 b.2 c.2).1
  one_mul a := Subtype.ext (C07_group_laws a.1 a.1 a.1 a.2 a.2 a.2).2.1
  mul_one a := Subtype.ext (C07_group_laws a.1 a.1 a.1 a.2 a.2 a.2).2.2.1
  inv_mul_cancel a := by
    obtain ⟨i, h1, -, h2⟩ := (C07_group_laws a.1 a.1 a.1 a.2 a.2 a.2).2.2.2.1
    rw [a.inv_eq] at h1
    exact Subtype.ext (by rw [← Option.some.inj h1] at h2; exact h2)

/-- `symmetric_composition_table(n)`; `enum` is what `all_permutations(n)` yields. permutation.rs:151-164 -/
noncomputable def symmetricTable (enum : List PermT) : Option (Grp × List PermT) :=
  generatedTable 1 (·⁻¹) (· * ·) (enum.filter fun p => decide (cycleShape p.1 = some [2]))

/-- `alternating_composition_table(n)` — permutation.rs:166-179 -/
noncomputable def alternatingTable (enum : List PermT) : Option (Grp × List PermT) :=
  generatedTable 1 (·⁻¹) (· * ·) (enum.filter fun p => decide (sign p.1 = .identity))

/-- `enum` yields exactly the permutations fixing every point `≥ n` (what `(0..n).permutations(n).map(new_unchecked)` yields; the order is irrelevant). -/
def Enumerates (n : Nat) (enum : List PermT) : Prop := ∀ p : PermT, p ∈ enum ↔ ∀ x, n ≤ x → call p.1 x = x

theorem permT_ext {p q : PermT} (h : ∀ x, call p.1 x = call q.1 x) : p = q := Subtype.ext ((C06_eq_iff p.1 q.1 p.2 q.2).2 h)

theorem call_mul (p q : PermT) (x : Nat) : call (p * q).1 x = call p.1 (call q.1 x) := C07_compose p.1 q.1 p.2 q.2 x

/-- extension of a permutation of `Fin n` by the identity -/
def extend {n : Nat} (σ : Equiv.Perm (Fin n)) (x : Nat) : Nat := if h : x < n then (σ ⟨x, h⟩).val else x

theorem extend_lt {n : Nat} (σ : Equiv.Perm (Fin n)) (x : Nat) (h : x < n) : extend σ x < n := by
  unfold extend; rw [dif_pos h]; exact Fin.isLt _

theorem extend_mul {n : Nat} (σ τ : Equiv.Perm (Fin n)) (x : Nat) : extend (σ * τ) x = extend σ (extend τ x) := by
  unfold extend
  by_cases h : x < n
  · simp [h]
  · simp [h]

theorem extend_injective {n : Nat} (σ : Equiv.Perm (Fin n)) : Function.Injective (extend σ) := by
  intro x y h
  have : extend σ⁻¹ (extend σ x) = extend σ⁻¹ (extend σ y) := by rw [h]
  rw [← extend_mul, ← extend_mul, inv_mul_cancel] at this
  unfold extend at this
  by_cases hx : x < n <;> by_cases hy : y < n <;> simp [hx, hy] at this <;> exact this

theorem ofPerm_value {n : Nat} (σ : Equiv.Perm (Fin n)) : Value (reduced ((List.range n).map (extend σ))) := by
  apply Value.new ((List.range n).map (extend σ))
  unfold Permutation.new
  rw [if_pos]
  rw [checkPerm_iff]
  exact map_perm n _ (extend_injective σ) (extend_lt σ)

theorem call_ofPerm {n : Nat} (σ : Equiv.Perm (Fin n)) (x : Nat) : call (reduced ((List.range n).map (extend σ))) x = extend σ x := by
  rw [call_reduced, call_map_range n (extend σ)]
  intro i hi
  unfold extend; rw [dif_neg (by omega)]

/-- the value built from a permutation of `Fin n` -/
def mkT {n : Nat} (σ : Equiv.Perm (Fin n)) : PermT := ⟨reduced ((List.range n).map (extend σ)), ofPerm_value σ⟩

theorem call_mkT {n : Nat} (σ : Equiv.Perm (Fin n)) (x : Nat) : call (mkT σ).1 x = extend σ x := call_ofPerm σ x

/-- the API value of a permutation of `Fin n` -/
noncomputable def ofPerm (n : Nat) : Equiv.Perm (Fin n) →* PermT :=
  MonoidHom.mk' mkT (by
    intro σ τ
    apply permT_ext
    intro x
    rw [call_mul, call_mkT, call_mkT, call_mkT, extend_mul])

theorem call_ofPerm' {n : Nat} (σ : Equiv.Perm (Fin n)) (x : Nat) : call (ofPerm n σ).1 x = extend σ x := call_ofPerm σ x

theorem ofPerm_injective (n : Nat) : Function.Injective (ofPerm n) := by
  intro σ τ h
  ext x
  have h1 := call_ofPerm' σ x.1
  have h2 := call_ofPerm' τ x.1
  rw [h, h2] at h1
  unfold extend at h1
  rw [dif_pos x.2, dif_pos x.2] at h1
  exact h1.symm

theorem mem_range_ofPerm (n : Nat) (p : PermT) : (∃ σ, ofPerm n σ = p) ↔ ∀ x, n ≤ x → call p.1 x = x := by
  constructor
  · rintro ⟨σ, rfl⟩ x hx
    rw [call_ofPerm']; unfold extend; rw [dif_neg (by omega)]
  · intro h
    have hinj := call_injective p.1 p.2.inv.1
    have hlt : ∀ x, x < n → call p.1 x < n := by
      intro x hx
      by_contra hge
      have := h (call p.1 x) (by omega)
      have := hinj this
      omega
    refine ⟨Equiv.ofBijective (fun i : Fin n => ⟨call p.1 i, hlt i i.2⟩) (Function.Injective.bijective_of_finite ?_), ?_⟩
    · intro a b e
      exact Fin.ext (hinj (congrArg Fin.val e))
    · apply permT_ext
      intro x
      rw [call_ofPerm']
      unfold extend
      split
      · rfl
      · rename_i hx; exact (h x (by omega)).symm

theorem cycleShape_two (n : Nat) (σ : Equiv.Perm (Fin n)) : cycleShape (ofPerm n σ).1 = some [2] ↔ σ.IsSwap := by
  obtain ⟨cs, s, h1, h2, h3, h4⟩ := C09_cycle_shape (ofPerm n σ).1 (ofPerm n σ).2
  obtain ⟨cs', g1, g2, g3, g4, g5, g6⟩ := C09_disjoint_cycles (ofPerm n σ).1 (ofPerm n σ).2
  rw [h1] at g1
  cases g1
  rw [h2]
  have hlen : some s = some [2] ↔ ∃ a b, cs = [[a, b]] := by
    constructor
    · intro e
      have e := Option.some.inj e
      subst e
      have hl := h3.length_eq
      rw [List.length_map] at hl
      obtain ⟨c, rfl⟩ := List.length_eq_one_iff.1 hl.symm
      have : c.length = 2 := by
        have := (h3.mem_iff (a := 2)).1 (by simp)
        exact (List.mem_singleton.1 this).symm
      obtain ⟨a, b, rfl⟩ := List.length_eq_two.1 this
      exact ⟨a, b, rfl⟩
    · rintro ⟨a, b, rfl⟩
      have : s = [2] := by
        have := h3.symm
        simp only [List.map_cons, List.map_nil, List.length_cons, List.length_nil] at this
        exact (List.singleton_perm.1 this).symm
      rw [this]
  rw [hlen]
  constructor
  · rintro ⟨a, b, rfl⟩
    have hnd := (g2 [a, b] (by simp)).2
    have hab : a ≠ b := by simpa using hnd
    have ha : a < n := by
      by_contra hge
      exact ((g4 a).1 ⟨[a, b], by simp, by simp⟩) ((mem_range_ofPerm n _).1 ⟨σ, rfl⟩ a (by omega))
    have hb : b < n := by
      by_contra hge
      exact ((g4 b).1 ⟨[a, b], by simp, by simp⟩) ((mem_range_ofPerm n _).1 ⟨σ, rfl⟩ b (by omega))
    refine ⟨⟨a, ha⟩, ⟨b, hb⟩, fun e => hab (congrArg Fin.val e), ?_⟩
    ext x
    have := g6 x.1
    rw [call_ofPerm'] at this
    unfold extend at this
    rw [dif_pos x.2] at this
    rw [← this]
    simp only [List.map_cons, List.map_nil, List.prod_cons, List.prod_nil, mul_one, List.formPerm_pair]
    rw [Equiv.swap_apply_def, Equiv.swap_apply_def]
    by_cases e1 : x.1 = a
    · rw [if_pos e1, if_pos (Fin.ext e1)]
    · rw [if_neg e1, if_neg (fun e => e1 (congrArg Fin.val e))]
      by_cases e2 : x.1 = b
      · rw [if_pos e2, if_pos (Fin.ext e2)]
      · rw [if_neg e2, if_neg (fun e => e2 (congrArg Fin.val e))]
  · rintro ⟨a, b, hab, rfl⟩
    -- every cycle consists of moved points, i.e. of a and b
    have hmove : ∀ x, (∃ c ∈ cs, x ∈ c) ↔ x = a.1 ∨ x = b.1 := by
      intro x
      rw [g4, call_ofPerm']
      unfold extend
      by_cases hx : x < n
      · rw [dif_pos hx, Equiv.swap_apply_def]
        have hab' : a.1 ≠ b.1 := fun e => hab (Fin.ext e)
        by_cases e1 : (⟨x, hx⟩ : Fin n) = a
        · have : x = a.1 := congrArg Fin.val e1
          rw [if_pos e1, this]; simp [hab'.symm]
        · rw [if_neg e1]
          have e1' : x ≠ a.1 := fun e => e1 (Fin.ext e)
          by_cases e2 : (⟨x, hx⟩ : Fin n) = b
          · have : x = b.1 := congrArg Fin.val e2
            rw [if_pos e2, this]; simp [hab']
          · have e2' : x ≠ b.1 := fun e => e2 (Fin.ext e)
            rw [if_neg e2]; simp [e1', e2']
      · rw [dif_neg hx]
        have := a.2; have := b.2
        simp only [ne_eq, not_true, false_iff, not_or]
        omega
    have hsub : ∀ c ∈ cs, ∀ x ∈ c, x ∈ [a.1, b.1] := by
      intro c hc x hx
      have := (hmove x).1 ⟨c, hc, hx⟩
      simpa using this
    have hc2 : ∀ c ∈ cs, c.Perm [a.1, b.1] := by
      intro c hc
      apply List.Subperm.perm_of_length_le ((g2 c hc).2.subperm (hsub c hc))
      exact (g2 c hc).1
    obtain ⟨c, hc, hac⟩ := (hmove a.1).2 (Or.inl rfl)
    obtain ⟨x, y, hxy⟩ := List.length_eq_two.1 (hc2 c hc).length_eq
    have honly : cs = [c] := by
      rcases cs with _ | ⟨c1, _ | ⟨c2, t⟩⟩
      · simp at hc
      · simp at hc; rw [hc]
      · rw [List.pairwise_cons] at g3
        have h1 := (hc2 c1 (by simp)).mem_iff (a := a.1)
        have h2 := (hc2 c2 (by simp)).mem_iff (a := a.1)
        exact absurd (h2.2 (by simp)) (fun h => g3.1 c2 (by simp) (h1.2 (by simp)) h)
    exact ⟨x, y, by rw [honly, hxy]⟩

theorem tableIso {n : Nat} (K : Subgroup (Equiv.Perm (Fin n))) (gens : List PermT)
    (hclos : Subgroup.closure {g | g ∈ gens} = K.map (ofPerm n)) :
    ∃ G elems, ∃ h : IsGroup G, generatedTable 1 (·⁻¹) (· * ·) gens = some (G, elems) ∧ elems.length = G.n ∧ elems.Nodup ∧
      (∀ p, p ∈ elems ↔ ∃ σ ∈ K, ofPerm n σ = p) ∧
      ∃ e : (VGrp.mk G h).Elem ≃* K, ∀ i, elems[i.idx]? = some (ofPerm n (e i).1) := by
  have hfin : (Subgroup.closure {g | g ∈ gens} : Set PermT).Finite := by
    rw [hclos, Subgroup.coe_map]
    exact (Set.toFinite _).image _
  obtain ⟨⟨G, elems⟩, hr⟩ := (C12_table_terminates gens).2 hfin
  obtain ⟨h1, h2, h3, h4, h5, h6⟩ := generatedTable_sound gens G elems hr
  have hmem : ∀ p, p ∈ elems ↔ ∃ σ ∈ K, ofPerm n σ = p := by
    intro p; rw [h2, hclos, Subgroup.mem_map]
  have hK : ∀ i : (VGrp.mk G h6.isGroup).Elem, ∃ σ : K, ofPerm n σ.1 = h6.hom i := by
    intro i
    have : elems.getD i.idx 1 ∈ elems := by
      have hi : i.idx < elems.length := by rw [← h3]; exact idx_lt i
      rw [List.getD_eq_getElem _ _ hi]; exact List.getElem_mem _
    obtain ⟨σ, hσ, e⟩ := (hmem _).1 this
    exact ⟨⟨σ, hσ⟩, e⟩
  choose f hf using hK
  refine ⟨G, elems, h6.isGroup, hr, h3.symm, h1, hmem, ?_⟩
  refine ⟨MulEquiv.ofBijective (MonoidHom.mk' f ?_) ⟨?_, ?_⟩, ?_⟩
  · intro a b
    apply Subtype.ext
    apply ofPerm_injective n
    rw [hf, map_mul, Subgroup.coe_mul, map_mul, hf, hf]
  · intro a b e
    apply h6.hom_injective
    rw [← hf a, ← hf b]
    exact congrArg (fun z : K => ofPerm n z.1) e
  · intro σ
    have := (hmem (ofPerm n σ.1)).2 ⟨σ.1, σ.2, rfl⟩
    obtain ⟨i, hi, e⟩ := List.getElem_of_mem this
    have hi' : i < G.n := by rw [h3]; exact hi
    refine ⟨VGrp.el (VGrp.mk G h6.isGroup) i hi', Subtype.ext (ofPerm_injective n ?_)⟩
    change ofPerm n (f _).1 = _
    rw [hf]
    change elems.getD i 1 = _
    rw [List.getD_eq_getElem _ _ hi, e]
  · intro i
    change elems[i.idx]? = some (ofPerm n (f i).1)
    rw [hf]
    have hi : i.idx < elems.length := by rw [← h3]; exact idx_lt i
    change _ = some (elems.getD i.idx 1)
    rw [List.getD_eq_getElem _ _ hi, List.getElem?_eq_getElem hi]

/-- C45: `symmetric_composition_table(n)` terminates with a valid group table with `n!` elements, isomorphic to the group of permutations of `n` points,
the `i`-th element corresponding to the `i`-th listed permutation. -/
theorem C45_symmetric_table (n : Nat) (enum : List PermT) (he : Enumerates n enum) :
    ∃ G elems, ∃ h : IsGroup G, symmetricTable enum = some (G, elems) ∧ G.n = n.factorial ∧ elems.length = G.n ∧ elems.Nodup ∧
      (∀ p : PermT, p ∈ elems ↔ ∀ x, n ≤ x → call p.1 x = x) ∧
      ∃ e : (VGrp.mk G h).Elem ≃* Equiv.Perm (Fin n), ∀ i, ∃ p, elems[i.idx]? = some p ∧ ∀ x : Fin n, call p.1 x = e i x := by
  have hgens : {g | g ∈ enum.filter fun p => decide (cycleShape p.1 = some [2])} = ofPerm n '' {σ | σ.IsSwap} := by
    ext p
    simp only [Set.mem_setOf_eq, List.mem_filter, decide_eq_true_eq, Set.mem_image]
    constructor
    · rintro ⟨h1, h2⟩
      obtain ⟨σ, rfl⟩ := (mem_range_ofPerm n p).2 ((he p).1 h1)
      exact ⟨σ, (cycleShape_two n σ).1 h2, rfl⟩
    · rintro ⟨σ, h1, rfl⟩
      exact ⟨(he _).2 ((mem_range_ofPerm n _).1 ⟨σ, rfl⟩), (cycleShape_two n σ).2 h1⟩
  obtain ⟨G, elems, h, h1, h2, h3, h4, e, h5⟩ := tableIso (⊤ : Subgroup (Equiv.Perm (Fin n))) (enum.filter fun p => decide (cycleShape p.1 = some [2])) (by
    rw [hgens, ← MonoidHom.map_closure, Equiv.Perm.closure_isSwap])
  refine ⟨G, elems, h, h1, ?_, h2, h3, ?_, e.trans Subgroup.topEquiv, ?_⟩
  · have := Fintype.card_congr (e.trans Subgroup.topEquiv).toEquiv
    rw [card_elem, Fintype.card_perm, Fintype.card_fin] at this
    exact this
  · intro p
    rw [h4, ← mem_range_ofPerm]
    simp
  · intro i
    refine ⟨_, h5 i, ?_⟩
    intro x
    rw [call_ofPerm']
    unfold extend
    rw [dif_pos x.2]
    rfl

/-- C45: `alternating_composition_table(n)` is a valid group table isomorphic to the alternating group, listing exactly the even permutations. -/
theorem C45_alternating_table (n : Nat) (enum : List PermT) (he : Enumerates n enum) :
    ∃ G elems, ∃ h : IsGroup G, alternatingTable enum = some (G, elems) ∧ elems.length = G.n ∧ elems.Nodup ∧
      (∀ p : PermT, p ∈ elems ↔ (∀ x, n ≤ x → call p.1 x = x) ∧ sign p.1 = .identity) ∧
      ∃ e : (VGrp.mk G h).Elem ≃* alternatingGroup (Fin n), ∀ i, ∃ p, elems[i.idx]? = some p ∧ ∀ x : Fin n, call p.1 x = (e i).1 x := by
  have hsign : ∀ σ : Equiv.Perm (Fin n), sign (ofPerm n σ).1 = .identity ↔ σ ∈ alternatingGroup (Fin n) := by
    intro σ
    rw [Equiv.Perm.mem_alternatingGroup]
    refine (C08_sign (ofPerm n σ).1 (ofPerm n σ).2 n σ ?_ ((mem_range_ofPerm n _).1 ⟨σ, rfl⟩)).2
    intro i
    rw [call_ofPerm']
    unfold extend
    rw [dif_pos i.2]
  have hgens : {g | g ∈ enum.filter fun p => decide (sign p.1 = .identity)} = ofPerm n '' (alternatingGroup (Fin n) : Set (Equiv.Perm (Fin n))) := by
    ext p
    simp only [Set.mem_setOf_eq, List.mem_filter, decide_eq_true_eq, Set.mem_image, SetLike.mem_coe]
    constructor
    · rintro ⟨h1, h2⟩
      obtain ⟨σ, rfl⟩ := (mem_range_ofPerm n p).2 ((he p).1 h1)
      exact ⟨σ, (hsign σ).1 h2, rfl⟩
    · rintro ⟨σ, h1, rfl⟩
      exact ⟨(he _).2 ((mem_range_ofPerm n _).1 ⟨σ, rfl⟩), (hsign σ).2 h1⟩
  obtain ⟨G, elems, h, h1, h2, h3, h4, e, h5⟩ := tableIso (alternatingGroup (Fin n)) (enum.filter fun p => decide (sign p.1 = .identity)) (by
    rw [hgens, ← MonoidHom.map_closure, Subgroup.closure_eq])
  refine ⟨G, elems, h, h1, h2, h3, ?_, e, ?_⟩
  · intro p
    rw [h4, ← mem_range_ofPerm]
    constructor
    · rintro ⟨σ, h1, rfl⟩; exact ⟨⟨σ, rfl⟩, (hsign σ).2 h1⟩
    · rintro ⟨⟨σ, rfl⟩, h2⟩; exact ⟨σ, (hsign σ).1 h2, rfl⟩
  · intro i
    refine ⟨_, h5 i, ?_⟩
    intro x
    rw [call_ofPerm']
    unfold extend
    rw [dif_pos x.2]

theorem call_perm_range {n : Nat} {l : List Nat} (h : l.Perm (List.range n)) : l.length = n ∧ IsPermList l := by
  have hl : l.length = n := by rw [h.length_eq, List.length_range]
  exact ⟨hl, by unfold IsPermList; rw [hl]; exact h⟩

theorem mem_lexArrangements (n : Nat) : ∀ l : List Nat, l.length = n → ∀ p, p ∈ lexArrangements n l ↔ p.Perm l := by
  induction n with
  | zero =>
    intro l hl p
    rw [List.length_eq_zero_iff] at hl
    subst hl
    simp [lexArrangements]
  | succ n ih =>
    intro l hl p
    simp only [lexArrangements, List.mem_flatMap, List.mem_range, List.mem_map]
    have herase : ∀ i (hi : i < l.length), (l[i] :: l.eraseIdx i).Perm l := fun i hi => List.getElem_cons_eraseIdx_perm hi
    constructor
    · rintro ⟨i, hi, q, hq, rfl⟩
      rw [ih _ (by rw [List.length_eraseIdx, if_pos hi]; omega)] at hq
      rw [List.getD_eq_getElem _ _ hi]
      exact (hq.cons _).trans (herase i hi)
    · intro hp
      cases p with
      | nil => rw [hp.symm.eq_nil] at hl; cases hl
      | cons x q =>
        obtain ⟨i, hi, e⟩ := List.getElem_of_mem (hp.subset List.mem_cons_self)
        refine ⟨i, hi, q, ?_, by rw [List.getD_eq_getElem _ _ hi, e]⟩
        rw [ih _ (by rw [List.length_eraseIdx, if_pos hi]; omega)]
        have := hp.trans (herase i hi).symm
        rw [e] at this
        exact List.Perm.cons_inv this

theorem nodup_lexArrangements (n : Nat) : ∀ l : List Nat, l.length = n → l.Nodup → (lexArrangements n l).Nodup := by
  induction n with
  | zero => intro l _ _; simp [lexArrangements]
  | succ n ih =>
    intro l hl hn
    unfold lexArrangements
    rw [List.nodup_flatMap]
    constructor
    · intro i hi
      rw [List.mem_range] at hi
      exact (ih _ (by rw [List.length_eraseIdx, if_pos hi]; omega) (hn.eraseIdx i)).map (fun a b e => by injection e)
    · refine List.Pairwise.imp_of_mem ?_ List.nodup_range
      intro i j hi hj hij
      rw [List.mem_range] at hi hj
      intro p h1 h2
      simp only [List.mem_map] at h1 h2
      obtain ⟨q, -, rfl⟩ := h1
      obtain ⟨q', -, e⟩ := h2
      rw [List.getD_eq_getElem _ _ hi, List.getD_eq_getElem _ _ hj] at e
      injection e with e1
      exact hij ((hn.getElem_inj_iff).1 e1.symm)

theorem lexArrangements_perm (n : Nat) (l : List Nat) (hl : l.length = n) (hn : l.Nodup) :
    (lexArrangements n l).Perm l.permutations := by
  rw [List.perm_ext_iff_of_nodup (nodup_lexArrangements n l hl hn) (List.nodup_permutations _ hn)]
  intro p
  rw [mem_lexArrangements n l hl, List.mem_permutations]

/-- C45: `all_permutations(n)` yields every permutation fixing all points `≥ n`, exactly once, and only values of the type. -/
theorem C45_all_permutations (n : Nat) :
    (allPermutations n).Nodup ∧ (allPermutations n).length = n.factorial ∧
      ∀ p, p ∈ allPermutations n ↔ Value p ∧ ∀ x, n ≤ x → call p x = x := by
  refine ⟨?_, ?_, ?_⟩
  · unfold allPermutations
    rw [((lexArrangements_perm n (List.range n) (by simp) List.nodup_range).map _).nodup_iff,
      List.nodup_map_iff_inj_on (List.nodup_permutations _ List.nodup_range)]
    intro a ha b hb e
    rw [List.mem_permutations] at ha hb
    obtain ⟨la, -⟩ := call_perm_range ha
    obtain ⟨lb, -⟩ := call_perm_range hb
    apply List.ext_getElem (by omega)
    intro i h1 h2
    rw [← call_of_lt a i h1, ← call_of_lt b i h2, ← call_reduced a, ← call_reduced b]
    exact congrArg (fun l => call l i) e
  · unfold allPermutations
    rw [((lexArrangements_perm n (List.range n) (by simp) List.nodup_range).map _).length_eq, List.length_map,
      List.length_permutations, List.length_range]
  · intro p
    unfold allPermutations
    rw [((lexArrangements_perm n (List.range n) (by simp) List.nodup_range).map _).mem_iff, List.mem_map]
    constructor
    · rintro ⟨l, hl, rfl⟩
      rw [List.mem_permutations] at hl
      obtain ⟨la, hp⟩ := call_perm_range hl
      refine ⟨Value.new l _ (by unfold Permutation.new; rw [if_pos ((checkPerm_iff l).2 hp)]; rfl), ?_⟩
      intro x hx
      change call (reduced l) x = x
      rw [call_reduced, call_of_ge _ _ (by omega)]
    · rintro ⟨hv, hfix⟩
      have hinj := call_injective p hv.inv.1
      have hlt : ∀ x, x < n → call p x < n := by
        intro x hx
        by_contra hge
        have := hinj (hfix (call p x) (by omega))
        omega
      have hp := map_perm n (call p) hinj hlt
      refine ⟨(List.range n).map (call p), ?_, ?_⟩
      · rw [List.mem_permutations]
        unfold IsPermList at hp
        rw [List.length_map, List.length_range] at hp
        exact hp
      · apply (C06_eq_iff _ p (Value.new ((List.range n).map (call p)) _ (by unfold Permutation.new; rw [if_pos ((checkPerm_iff _).2 hp)]; rfl)) hv).2
        intro x
        change call (reduced _) x = _
        rw [call_reduced, call_map_range n (call p) hfix]

/-- a member of `all_permutations(n)`, as a value of the type -/
def permOfMem (n : Nat) (p : {p // p ∈ allPermutations n}) : PermT := ⟨p.1, ((C45_all_permutations n).2.2 p.1).1 p.2 |>.1⟩

/-- what `all_permutations(n)` yields, as values of the type -/
theorem enumerates_allPermutations (n : Nat) :
    Enumerates n ((allPermutations n).attach.map (permOfMem n)) := by
  intro p
  rw [List.mem_map]
  constructor
  · rintro ⟨q, -, rfl⟩
    exact (((C45_all_permutations n).2.2 q.1).1 q.2).2
  · intro h
    exact ⟨⟨p.1, ((C45_all_permutations n).2.2 p.1).2 ⟨p.2, h⟩⟩, List.mem_attach _ _, rfl⟩

/-- the hypothesis of the two table theorems is met by `all_permutations(n)` itself -/
example (n : Nat) : ∃ enum, Enumerates n enum := ⟨_, enumerates_allPermutations n⟩

end Verif.Props.Perm
