import Verif.Proofs.ToddCoxeter
import Verif.Spec.ToddCoxeter

namespace Verif.ToddCoxeter

open Verif.Perm Verif.Table

theorem map_letterVal {G H : Type*} [Group G] [Group H] {n : Nat} (φ : G →* H) (x : Fin n → G) (d : Nat) :
    φ (letterVal x d) = letterVal (fun i => φ (x i)) d := by
  unfold letterVal
  split
  · split <;> simp
  · simp

theorem map_wordVal {G H : Type*} [Group G] [Group H] {n : Nat} (φ : G →* H) (x : Fin n → G) (w : List Nat) :
    φ (wordVal x w) = wordVal (fun i => φ (x i)) w := by
  unfold wordVal
  rw [map_list_prod, List.map_map]
  congr 1
  apply List.map_congr_left
  intro d _
  exact map_letterVal φ x d

theorem wordVal_rel {n : Nat} {rels : List (List Nat)} {w : List Nat} (hw : w ∈ rels) :
    wordVal (PresGroup.gen : Fin n → PresGroup n rels) w = 1 := by
  have := PresentedGroup.one_of_mem (rels := {r : FreeGroup (Fin n) | ∃ w ∈ rels, r = wordVal FreeGroup.of w})
    (x := wordVal FreeGroup.of w) ⟨w, hw, rfl⟩
  rw [map_wordVal] at this
  exact this

theorem wordVal_inv_rel {G : Type*} [Group G] {n : Nat} (x : Fin n → G) (i : Nat) : wordVal x [2 * i + 1, 2 * i] = 1 := by
  unfold wordVal letterVal
  have h1 : (2 * i + 1) / 2 = i := by omega
  have h2 : (2 * i) / 2 = i := by omega
  have h3 : (2 * i + 1) % 2 = 1 := by omega
  have h4 : (2 * i) % 2 = 0 := by omega
  by_cases h : i < n <;> simp [h1, h3, h]

theorem wordVal_fullRels {n : Nat} {rels : List (List Nat)} {w : List Nat} (hw : w ∈ fullRels n rels) :
    wordVal (PresGroup.gen : Fin n → PresGroup n rels) w = 1 := by
  unfold fullRels at hw
  rcases List.mem_append.1 hw with h | h
  · exact wordVal_rel h
  · obtain ⟨i, _, rfl⟩ := List.mem_map.1 h
    exact wordVal_inv_rel _ i

theorem wordAct_smul {G X : Type*} [Group G] [MulAction G X] {n : Nat} (x : Fin n → G) (w : List Nat) (p : X) :
    w.foldr (fun d p => letterVal x d • p) p = wordVal x w • p := by
  induction w with
  | nil => simp [wordVal]
  | cons d t ih =>
    rw [List.foldr_cons, ih]
    simp [wordVal, mul_smul]

/-- Any homomorphism out of a presented group is determined by a choice of values satisfying the relations. -/
theorem exists_lift {n : Nat} {rels : List (List Nat)} {G : Type*} [Group G] (x : Fin n → G) (h : ∀ w ∈ rels, wordVal x w = 1) :
    ∃ φ : PresGroup n rels →* G, ∀ i, φ (PresGroup.gen i) = x i := by
  have h' : ∀ r ∈ {r : FreeGroup (Fin n) | ∃ w ∈ rels, r = wordVal FreeGroup.of w}, FreeGroup.lift x r = 1 := by
    rintro r ⟨w, hw, rfl⟩
    rw [map_wordVal]
    simpa using h w hw
  exact ⟨PresentedGroup.toGroup h', fun i => PresentedGroup.toGroup.of h'⟩

theorem pres_induction {n : Nat} {rels : List (List Nat)} {P : PresGroup n rels → Prop} (one : P 1)
    (mul : ∀ i x, P x → P (PresGroup.gen i * x)) (inv : ∀ i x, P x → P ((PresGroup.gen i)⁻¹ * x)) : ∀ x, P x := by
  intro x
  have hx : x ∈ Subgroup.closure (Set.range (PresGroup.gen : Fin n → PresGroup n rels)) := by
    rw [show (PresGroup.gen : Fin n → PresGroup n rels) = PresentedGroup.of from rfl, PresentedGroup.closure_range_of]
    trivial
  induction hx using Subgroup.closure_induction_left with
  | one => exact one
  | mul_left a ha y _ hy =>
    obtain ⟨i, rfl⟩ := ha
    exact mul i y hy
  | inv_mul_cancel a ha y _ hy =>
    obtain ⟨i, rfl⟩ := ha
    exact inv i y hy

theorem call_surj {p : List Nat} (h : IsPermList p) {m : Nat} (hm : p.length ≤ m) {i : Nat} (hi : i < m) : ∃ j, j < m ∧ call p j = i := by
  have := (toFin p h m hm).surjective ⟨i, hi⟩
  obtain ⟨j, hj⟩ := this
  refine ⟨j.1, j.2, ?_⟩
  have := congrArg Fin.val hj
  simpa using this

theorem enumerate_coset_map {n m : Nat} {rels subs : List (List Nat)} {perms : List (List Nat)}
    (h : enumerateCosets n rels subs = some (m, perms)) :
    0 < m ∧ perms.length = n ∧ (∀ p ∈ perms, IsPermList p ∧ p.length ≤ m) ∧
    ∃ f : Nat → PresGroup n rels ⧸ PresGroup.sub (n := n) rels subs, f 0 = ((1 : PresGroup n rels) : _ ⧸ _) ∧
      (∀ (g : Fin n) (p : List Nat), perms[g.val]? = some p → ∀ i, i < m → f (call p i) = (PresGroup.gen g : PresGroup n rels) • f i) ∧
      ∀ q, ∃ i, i < m ∧ f i = q := by
  have := enumerateCosets_sound (σ := fun d (p : PresGroup n rels ⧸ PresGroup.sub (n := n) rels subs) =>
      letterVal (PresGroup.gen : Fin n → PresGroup n rels) d • p) ((1 : PresGroup n rels) : _ ⧸ _) ?_ ?_ h
  · obtain ⟨h1, h2, h3, f, h4, h5⟩ := this
    have h5' : ∀ (g : Fin n) (p : List Nat), perms[g.val]? = some p → ∀ i, i < m →
        f (call p i) = (PresGroup.gen g : PresGroup n rels) • f i := by
      intro g p hp i hi
      rw [h5 g p hp i hi]
      congr 1
      unfold letterVal
      have e1 : 2 * g.val / 2 = g.val := by omega
      have e2 : 2 * g.val % 2 = 0 := by omega
      simp [e1]
    refine ⟨h1, h2, h3, f, h4, h5', ?_⟩
    have key : ∀ x : PresGroup n rels, ∃ i, i < m ∧ f i = (x : _ ⧸ _) := by
      apply pres_induction
      · exact ⟨0, h1, h4⟩
      · rintro g x ⟨i, hi, hx⟩
        obtain ⟨p, hp⟩ : ∃ p, perms[g.val]? = some p := ⟨_, List.getElem?_eq_getElem (by rw [h2]; exact g.2)⟩
        obtain ⟨hp1, hp2⟩ := h3 p (List.mem_of_getElem? hp)
        exact ⟨call p i, call_lt p hp1 m i hp2 hi, by rw [h5' g p hp i hi, hx]; rfl⟩
      · rintro g x ⟨i, hi, hx⟩
        obtain ⟨p, hp⟩ : ∃ p, perms[g.val]? = some p := ⟨_, List.getElem?_eq_getElem (by rw [h2]; exact g.2)⟩
        obtain ⟨hp1, hp2⟩ := h3 p (List.mem_of_getElem? hp)
        obtain ⟨j, hj, hji⟩ := call_surj hp1 hp2 hi
        refine ⟨j, hj, ?_⟩
        have := h5' g p hp j hj
        rw [hji, hx] at this
        rw [show (((PresGroup.gen g)⁻¹ * x : PresGroup n rels) : _ ⧸ PresGroup.sub (n := n) rels subs) =
          (PresGroup.gen g : PresGroup n rels)⁻¹ • (x : _ ⧸ PresGroup.sub (n := n) rels subs) from rfl, this, inv_smul_smul]
    intro q
    induction q using QuotientGroup.induction_on with
    | H x => exact key x
  · intro w hw x
    unfold wordAct
    rw [wordAct_smul, wordVal_fullRels hw, one_smul]
  · intro w hw
    unfold wordAct
    rw [wordAct_smul]
    rw [show wordVal PresGroup.gen w • ((1 : PresGroup n rels) : _ ⧸ PresGroup.sub (n := n) rels subs) =
      ((wordVal PresGroup.gen w * 1 : PresGroup n rels) : _ ⧸ _) from rfl, mul_one, QuotientGroup.eq]
    simp only [mul_one]
    exact inv_mem (Subgroup.subset_closure ⟨w, hw, rfl⟩)

end Verif.ToddCoxeter
