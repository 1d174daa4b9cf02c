import Verif.Proofs.Symmetric
import Mathlib.GroupTheory.Perm.Closure
import Mathlib.GroupTheory.Perm.Fin
import Mathlib.Data.List.NodupEquivFin

/-!
# `is_symmetric`: two generators suffice
-/

namespace Verif.Rings

open MvPolynomial

section
variable {R : Type} [CommSemiring R]

/-- A permutation of positions as a permutation of the variables at these positions. -/
def liftPerm {vars : List ℕ} (hn : vars.Nodup) (τ : Equiv.Perm (Fin vars.length)) : Equiv.Perm ℕ :=
  τ.extendDomain (List.Nodup.getEquiv vars hn)

theorem liftPerm_get {vars : List ℕ} (hn : vars.Nodup) (τ : Equiv.Perm (Fin vars.length)) (i : Fin vars.length) :
    liftPerm hn τ vars[i] = vars[τ i] :=
  Equiv.Perm.extendDomain_apply_image τ (List.Nodup.getEquiv vars hn) i

theorem liftPerm_notMem {vars : List ℕ} (hn : vars.Nodup) (τ : Equiv.Perm (Fin vars.length)) {x : ℕ} (hx : x ∉ vars) :
    liftPerm hn τ x = x := Equiv.Perm.extendDomain_apply_not_subtype _ _ hx

theorem liftPerm_surj {vars : List ℕ} (hn : vars.Nodup) {σ : Equiv.Perm ℕ} (hσ : ∀ x, x ∉ vars → σ x = x) :
    ∃ τ, liftPerm hn τ = σ := by
  have hin : ∀ x, x ∈ vars ↔ σ x ∈ vars := by
    intro x
    constructor
    · intro hx
      exact (map_perm_vars hn hσ).subset (List.mem_map_of_mem hx)
    · intro hx
      by_contra h
      rw [hσ x h] at hx
      exact h hx
  let f := List.Nodup.getEquiv vars hn
  refine ⟨(f.trans (σ.subtypePerm (p := fun x => x ∈ vars) fun x => (hin x).symm)).trans f.symm, ?_⟩
  ext x
  by_cases hx : x ∈ vars
  · rw [liftPerm, Equiv.Perm.extendDomain_apply_subtype _ _ hx]
    simp [f]
  · rw [liftPerm_notMem hn _ hx, hσ x hx]

/-- The permutations of positions that leave `P` as it is. -/
def fixing {vars : List ℕ} (hn : vars.Nodup) (P : MvPolynomial ℕ R) : Subgroup (Equiv.Perm (Fin vars.length)) where
  carrier := {τ | rename (liftPerm hn τ) P = P}
  one_mem' := by
    change rename (Equiv.Perm.extendDomain 1 _) P = P
    rw [Equiv.Perm.extendDomain_one]
    exact rename_id_apply P
  mul_mem' := by
    intro a b ha hb
    change rename (Equiv.Perm.extendDomain (a * b) _) P = P
    rw [← Equiv.Perm.extendDomain_mul, Equiv.Perm.coe_mul, ← rename_rename]
    exact (congrArg _ hb).trans ha
  inv_mem' := by
    intro a ha
    change rename (Equiv.Perm.extendDomain a⁻¹ _) P = P
    rw [← Equiv.Perm.extendDomain_inv]
    have ha' : rename (Equiv.Perm.extendDomain a (List.Nodup.getEquiv vars hn)) P = P := ha
    conv_lhs => rw [← ha']
    rw [rename_rename]
    convert rename_id_apply P
    funext x
    exact Equiv.symm_apply_apply _ x

theorem symmetricIn_iff {vars : List ℕ} (hn : vars.Nodup) (P : MvPolynomial ℕ R) (gens : Set (Equiv.Perm (Fin vars.length)))
    (hg : Subgroup.closure gens = ⊤) :
    SymmetricIn vars P ↔ (∀ x ∈ P.vars, x ∈ vars) ∧ ∀ τ ∈ gens, rename (liftPerm hn τ) P = P := by
  refine and_congr_right fun _ => ⟨fun h τ _ => h _ fun x hx => liftPerm_notMem hn τ hx, fun h σ hσ => ?_⟩
  obtain ⟨τ, rfl⟩ := liftPerm_surj hn hσ
  have : Subgroup.closure gens ≤ fixing hn P := (Subgroup.closure_le _).2 fun τ hτ => h τ hτ
  exact this (hg ▸ Subgroup.mem_top τ)

/-- Positions `0` and `1` exchanged. -/
def genSwap (i : ℕ) : ℕ := if i = 0 then 1 else if i = 1 then 0 else i

theorem gens_closure (n : ℕ) : Subgroup.closure {finRotate (n + 2), Equiv.swap (0 : Fin (n + 2)) 1} = ⊤ := by
  have := Equiv.Perm.closure_cycle_adjacent_swap (isCycle_finRotate (n := n)) support_finRotate 0
  rwa [finRotate_succ_apply, zero_add] at this

theorem val_finRotate' (n : ℕ) (i : Fin (n + 2)) : (finRotate (n + 2) i).val = (i.val + 1) % (n + 2) := by
  rw [finRotate_succ_apply, Fin.val_add]
  simp

theorem val_swap (n : ℕ) (i : Fin (n + 2)) : (Equiv.swap (0 : Fin (n + 2)) 1 i).val = genSwap i.val := by
  have h0 : i = 0 ↔ i.val = 0 := by rw [Fin.ext_iff]; rfl
  have h1 : i = 1 ↔ i.val = 1 := by rw [Fin.ext_iff]; rfl
  rw [Equiv.swap_apply_def, genSwap]
  by_cases hi : i.val = 0
  · rw [if_pos (h0.2 hi), if_pos hi]; rfl
  · rw [if_neg (mt h0.1 hi), if_neg hi]
    by_cases hi' : i.val = 1
    · rw [if_pos (h1.2 hi'), if_pos hi']; rfl
    · rw [if_neg (mt h1.1 hi'), if_neg hi']

variable {α : Type} {S : SemiRingOps α} {v : α → R}

/-- One permutation in the loop of `is_symmetric`. -/
theorem SemiRingOps.Models.symCheck_one (h : S.Models v) {vars : List ℕ} (hn : vars.Nodup) {p : MPoly α} (hp : p.WF)
    (hfree : ∀ x ∈ p.freeVars, x ∈ vars) (f : ℕ → ℕ) (τ : Equiv.Perm (Fin vars.length)) (hf : ∀ i : Fin vars.length, (τ i).val = f i.val) :
    ∃ m q, symVarsMap vars ((List.range vars.length).map f) = some m ∧ p.applyMapVars (lookupLast m) = some q ∧
      (S.mpEqual p q = true ↔ rename (liftPerm hn τ) (mpVal v p) = mpVal v p) := by
  have key : ∀ a ∈ ((List.range vars.length).map f).zipIdx, ((do
      let x ← vars[a.2]?
      let y ← vars[a.1]?
      some (x, y) : Option (ℕ × ℕ))) = some (vars.getD a.2 0, vars.getD a.1 0) := by
    intro a ha
    obtain ⟨h1, h2⟩ := List.mem_zipIdx' ha
    simp only [List.length_map, List.length_range] at h1
    have h3 : a.1 < vars.length := by
      rw [h2, List.getElem_map, List.getElem_range, ← hf ⟨a.2, h1⟩]
      exact (τ _).2
    simp [h1, h3]
  have hm := Sets.mapM_some_of _ _ _ key
  set m := ((List.range vars.length).map f).zipIdx.map fun a => (vars.getD a.2 0, vars.getD a.1 0) with hmdef
  have hkeys : m.map Prod.fst = vars := by
    rw [hmdef, List.map_map]
    apply List.ext_getElem
    · simp
    · intro i h1 h2
      simp [h2]
  have hlook : ∀ x ∈ vars, lookupLast m x = some (liftPerm hn τ x) := by
    intro x hx
    cases hl : lookupLast m x with
    | none => rw [lookupLast_none, hkeys] at hl; exact (hl hx).elim
    | some y =>
      have hmem := lookupLast_some hl
      rw [hmdef] at hmem
      obtain ⟨a, ha, hxy⟩ := List.mem_map.1 hmem
      obtain ⟨h1, h2⟩ := List.mem_zipIdx' ha
      simp only [List.length_map, List.length_range] at h1
      rw [List.getElem_map, List.getElem_range] at h2
      simp only [Prod.mk.injEq] at hxy
      have h4 := liftPerm_get hn τ ⟨a.2, h1⟩
      have h5 : (τ ⟨a.2, h1⟩).val = a.1 := by rw [hf, h2]
      have h3 : a.1 < vars.length := h5 ▸ (τ _).2
      simp only [Fin.getElem_fin, h5] at h4
      rw [← hxy.1, ← hxy.2]
      simp [h1, h3, h4]
  refine ⟨m, _, hm, MPoly.applyMapVars_some _ (liftPerm hn τ) p fun x hx => hlook x (hfree x hx), ?_⟩
  rw [h.mpEqual_iff hp (applyMapVars_wf _ hp (Set.injOn_of_injective (liftPerm hn τ).injective)), mpVal_applyMapVars, eq_comm]

theorem SemiRingOps.Models.symCheck_ok (h : S.Models v) {vars : List ℕ} (hn : vars.Nodup) {p : MPoly α} (hp : p.WF)
    (hfree : ∀ x ∈ p.freeVars, x ∈ vars) (gens : List ((ℕ → ℕ) × Equiv.Perm (Fin vars.length)))
    (hg : ∀ g ∈ gens, ∀ i : Fin vars.length, (g.2 i).val = g.1 i.val) :
    ∃ b, S.symCheck vars p (gens.map fun g => (List.range vars.length).map g.1) = some b ∧
      (b = true ↔ ∀ g ∈ gens, rename (liftPerm hn g.2) (mpVal v p) = mpVal v p) := by
  induction gens with
  | nil => exact ⟨true, rfl, by simp⟩
  | cons g gens ih =>
    obtain ⟨m, q, h1, h2, h3⟩ := h.symCheck_one hn hp hfree g.1 g.2 (hg g List.mem_cons_self)
    obtain ⟨b, h4, h5⟩ := ih fun g hg' => hg g (List.mem_cons_of_mem _ hg')
    rw [List.map_cons, SemiRingOps.symCheck]
    simp only [h1, h2, Option.bind_eq_bind, Option.bind_some]
    by_cases he : S.mpEqual p q = true
    · refine ⟨b, by rw [if_pos he, h4], h5.trans ?_⟩
      simp [h3.1 he]
    · refine ⟨false, by rw [if_neg he], ?_⟩
      simp only [Bool.false_eq_true, false_iff]
      intro hall
      exact he (h3.2 (hall g List.mem_cons_self))

theorem symGenerators_eq (n : ℕ) : symGenerators (n + 3) =
    [(List.range (n + 3)).map genSwap, (List.range (n + 3)).map fun i => (i + 1) % (n + 3)] := by
  rw [symGenerators]
  simp only [Nat.add_eq_zero_iff, OfNat.ofNat_ne_zero, and_false, if_false]
  rw [if_neg (by omega), if_neg (by omega)]
  rfl

theorem gens_exist (n : ℕ) : ∃ gens : List ((ℕ → ℕ) × Equiv.Perm (Fin n)),
    (∀ g ∈ gens, ∀ i : Fin n, (g.2 i).val = g.1 i.val) ∧ Subgroup.closure {τ | ∃ g ∈ gens, g.2 = τ} = ⊤ ∧
    symGenerators n = gens.map (fun g => (List.range n).map g.1) := by
  match n with
  | 0 => exact ⟨[], by simp, Subsingleton.elim _ _, rfl⟩
  | 1 => exact ⟨[(fun _ => 0, 1)], by simp, Subsingleton.elim _ _, rfl⟩
  | 2 =>
    refine ⟨[(genSwap, Equiv.swap (0 : Fin 2) 1)], ?_, ?_, rfl⟩
    · intro g hg i
      rw [List.mem_singleton] at hg
      subst hg
      exact val_swap 0 i
    · rw [← gens_closure 0]
      congr 1
      ext τ
      have : finRotate (0 + 2) = Equiv.swap (0 : Fin (0 + 2)) 1 := by decide
      simp [this, eq_comm]
  | n + 3 =>
    refine ⟨[(genSwap, Equiv.swap (0 : Fin (n + 3)) 1), (fun i => (i + 1) % (n + 3), finRotate (n + 3))], ?_, ?_, symGenerators_eq n⟩
    · intro g hg i
      rcases List.mem_cons.1 hg with rfl | hg
      · exact val_swap (n + 1) i
      · rw [List.mem_singleton] at hg
        subst hg
        exact val_finRotate' (n + 1) i
    · rw [← gens_closure (n + 1)]
      congr 1
      ext τ
      simp only [List.mem_cons, List.not_mem_nil, or_false, Set.mem_setOf_eq, Set.mem_insert_iff, Set.mem_singleton_iff]
      constructor
      · rintro ⟨g, rfl | rfl, rfl⟩
        · right; rfl
        · left; rfl
      · rintro (rfl | rfl)
        · exact ⟨_, Or.inr rfl, rfl⟩
        · exact ⟨_, Or.inl rfl, rfl⟩

theorem SemiRingOps.Models.mpIsSymmetric (h : S.Models v) {vars : List ℕ} (hn : vars.Nodup) {p : MPoly α} (hp : p.WF) (hr : p.Reduced v) :
    ∃ b, S.mpIsSymmetric vars p = some b ∧ (b = true ↔ SymmetricIn vars (mpVal v p)) := by
  rw [SemiRingOps.mpIsSymmetric]
  by_cases hfree : (p.freeVars.all fun x => vars.contains x) = true
  swap
  · refine ⟨false, by rw [if_neg hfree], ?_⟩
    simp only [Bool.false_eq_true, false_iff]
    intro hs
    apply hfree
    rw [List.all_eq_true]
    intro x hx
    simpa using hs.1 x ((mem_freeVars v hp hr x).1 hx)
  · rw [if_pos hfree]
    have hfree' : ∀ x ∈ p.freeVars, x ∈ vars := by simpa using hfree
    have hvars : ∀ x ∈ (mpVal v p).vars, x ∈ vars := fun x hx => hfree' x (vars_subset_freeVars v hp hx)
    have main : ∀ gens : List ((ℕ → ℕ) × Equiv.Perm (Fin vars.length)),
        (∀ g ∈ gens, ∀ i : Fin vars.length, (g.2 i).val = g.1 i.val) →
        Subgroup.closure {τ | ∃ g ∈ gens, g.2 = τ} = ⊤ →
        symGenerators vars.length = gens.map (fun g => (List.range vars.length).map g.1) →
        ∃ b, S.symCheck vars p (symGenerators vars.length) = some b ∧ (b = true ↔ SymmetricIn vars (mpVal v p)) := by
      intro gens h1 h2 h3
      obtain ⟨b, h4, h5⟩ := h.symCheck_ok hn hp hfree' gens h1
      refine ⟨b, by rw [h3, h4], h5.trans ?_⟩
      rw [symmetricIn_iff hn _ _ h2]
      constructor
      · rintro hall
        exact ⟨hvars, fun τ ⟨g, hg, hgt⟩ => hgt ▸ hall g hg⟩
      · intro hs g hg
        exact hs.2 _ ⟨g, hg, rfl⟩
    obtain ⟨gens, h1, h2, h3⟩ := gens_exist vars.length
    exact main gens h1 h2 h3

end

end Verif.Rings
