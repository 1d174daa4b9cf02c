import Verif.Model.Symmetric
import Verif.Proofs.SymmetricMath
import Verif.Proofs.MultiPolyDiv
import Verif.Proofs.Subsets

/-!
# `elementary_symmetric` and the substitution of elementary symmetric polynomials
-/

namespace Verif.Rings

open MvPolynomial

section Subsets
variable {A : Type} [CommSemiring A]

theorem esymm_gt (l : List A) (k : ℕ) (h : l.length < k) : (l : Multiset A).esymm k = 0 := by
  rw [Multiset.esymm, Multiset.powersetCard_eq_empty]
  · rfl
  · simpa using h

theorem esymm_succ (l : List A) (k : ℕ) : (l : Multiset A).esymm (k + 1) =
    ((List.range l.length).map fun i => l.getD i 0 * (l.drop (i + 1) : Multiset A).esymm k).sum := by
  induction l with
  | nil => simp [Multiset.esymm, Multiset.powersetCard_zero_right]
  | cons a l ih =>
    rw [← Multiset.cons_coe, esymm_cons, ih, List.length_cons, List.range_succ_eq_map, List.map_cons, List.map_map, List.sum_cons,
      add_comm]
    congr 1

theorem sum_flatMap {ι κ : Type} (l : List ι) (g : ι → List κ) (f : κ → A) :
    ((l.flatMap g).map f).sum = (l.map fun i => ((g i).map f).sum).sum := by
  induction l with
  | nil => rfl
  | cons a l ih => rw [List.flatMap_cons, List.map_append, List.sum_append, ih, List.map_cons, List.sum_cons]

theorem subsets_sum (l : List A) (k : ℕ) :
    ((Sets.subsets l.length k).map fun s => (s.map fun i => l.getD i 0).prod).sum = (l : Multiset A).esymm k := by
  induction k generalizing l with
  | zero => simp [Sets.subsets, esymm_zero']
  | succ k ih =>
    rw [Sets.subsets]
    split_ifs with h
    · rw [esymm_gt l (k + 1) (by omega)]; rfl
    · rw [sum_flatMap, esymm_succ]
      congr 1
      apply List.map_congr_left
      intro i hi
      rw [← ih (l.drop (i + 1)), List.map_map, ← List.sum_map_mul_left, List.length_drop, Nat.sub_sub]
      congr 1
      apply List.map_congr_left
      intro s _
      simp only [Function.comp, List.map_cons, List.prod_cons, List.map_map]
      congr 2
      apply List.map_congr_left
      intro r _
      simp only [Function.comp, List.getD_eq_getElem?_getD, List.getElem?_drop]
      congr 2
      omega

end Subsets

section
variable {α R : Type} [CommSemiring R] {S : SemiRingOps α} {v : α → R}

theorem SemiRingOps.Models.mpVar_val (h : S.Models v) (x : ℕ) : mpVal v (S.mpVar x) = X x := by
  rw [SemiRingOps.mpVar, SemiRingOps.mpVarPow, mpVal_single, monoVal_new, h.one, X]
  simp [monoVal]

theorem SemiRingOps.mpVar_wf (S : SemiRingOps α) (x : ℕ) : MPoly.WF (S.mpVar x) := MPoly.single_wf (Mono.new_wf (by simp))

theorem SemiRingOps.Models.mpVarsFold (h : S.Models v) (H : HashOrder) (vs : List Nat) (p : MPoly α) (hp : p.WF) :
    MPoly.WF (vs.foldl (fun p x => (S.multi H).mul p (S.mpVar x)) p) ∧
      mpVal v (vs.foldl (fun p x => (S.multi H).mul p (S.mpVar x)) p) = mpVal v p * (vs.map X).prod := by
  induction vs generalizing p with
  | nil => exact ⟨hp, by simp⟩
  | cons x vs ih =>
    obtain ⟨h1, h2⟩ := ih _ (h.mpMul_wf H p (S.mpVar x))
    refine ⟨h1, h2.trans ?_⟩
    rw [h.mpMul_val, h.mpVar_val, List.map_cons, List.prod_cons, mul_assoc]

theorem SemiRingOps.Models.mpOne_val (h : S.Models v) (H : HashOrder) : mpVal v (S.multi H).one = 1 := by
  change mpVal v [(S.one, Mono.one)] = 1
  rw [mpVal_single, h.one, monoVal_one]; rfl

theorem SemiRingOps.Models.mpVarsProduct (h : S.Models v) (H : HashOrder) (vs : List Nat) :
    MPoly.WF (S.mpVarsProduct H vs) ∧ mpVal v (S.mpVarsProduct H vs) = (vs.map X).prod := by
  obtain ⟨h1, h2⟩ := h.mpVarsFold H vs (S.multi H).one (MPoly.single_wf Mono.one_wf)
  exact ⟨h1, by rw [SemiRingOps.mpVarsProduct, h2, h.mpOne_val, one_mul]⟩

theorem SemiRingOps.Models.mpSumFold (h : S.Models v) (H : HashOrder) {ι : Type} (l : List ι) (f : ι → MPoly α) (hf : ∀ i ∈ l, (f i).WF)
    (p : MPoly α) (hp : p.WF) (hpr : p.Reduced v) :
    MPoly.WF (l.foldl (fun p x => (S.multi H).add p (f x)) p) ∧
    MPoly.Reduced v (l.foldl (fun p x => (S.multi H).add p (f x)) p) ∧
      mpVal v (l.foldl (fun p x => (S.multi H).add p (f x)) p) = mpVal v p + (l.map fun i => mpVal v (f i)).sum := by
  induction l generalizing p with
  | nil => exact ⟨hp, hpr, by simp⟩
  | cons x l ih =>
    obtain ⟨h1, h2, h3⟩ := ih (fun i hi => hf i (List.mem_cons_of_mem _ hi)) _ (h.mpAdd_wf hp (hf x List.mem_cons_self))
      (h.mpAdd_reduced _ _)
    refine ⟨h1, h2, h3.trans ?_⟩
    rw [h.mpAdd_val, List.map_cons, List.sum_cons, add_assoc]

theorem SemiRingOps.Models.mpElementarySymmetric (h : S.Models v) (H : HashOrder) (k : ℕ) (vars : List ℕ) :
    ∃ p, S.mpElementarySymmetric H k vars = some p ∧ p.WF ∧ p.Reduced v ∧ mpVal v p = esymIn R k vars := by
  obtain ⟨h1, h2, h3⟩ := h.mpSumFold H ((Sets.subsets vars.length k).map fun s => s.map fun i => vars[i]!) (S.mpVarsProduct H)
    (fun i _ => (h.mpVarsProduct H i).1) (S.multi H).zero MPoly.nil_wf (fun t ht => by simp [SemiRingOps.multi] at ht)
  refine ⟨_, by rw [SemiRingOps.mpElementarySymmetric, Sets.subsetsVec_eq]; rfl, h1, h2, h3.trans ?_⟩
  have hz : mpVal v (S.multi H).zero = 0 := mpVal_nil v
  rw [hz, zero_add, List.map_map, esymIn, ← subsets_sum, List.length_map]
  congr 1
  apply List.map_congr_left
  intro s hs
  simp only [Function.comp, (h.mpVarsProduct H _).2, List.map_map]
  congr 1
  apply List.map_congr_left
  intro i hi
  have hlt := ((Sets.mem_subsets _ _ _).1 hs).2.2 i hi
  simp [List.getD_eq_getElem?_getD, hlt]

/-- the coefficients as constant polynomials -/
theorem mpVal_applyMap_constant (g : MPoly α) :
    mpVal (mpVal v) (g.applyMap MPoly.constant) = MvPolynomial.map C (mpVal v g) := by
  induction g with
  | nil => simp [MPoly.applyMap, mpVal_nil]
  | cons t g ih =>
    rw [MPoly.applyMap, List.map_cons, ← MPoly.applyMap, mpVal_cons, mpVal_cons, ih, map_add, map_monomial, MPoly.constant, mpVal_single,
      monoVal_one]
    rfl

theorem freeVars_applyMap {β : Type} (f : α → β) (g : MPoly α) (x : ℕ) : x ∈ (g.applyMap f).freeVars ↔ x ∈ g.freeVars := by
  simp only [mem_freeVars_raw, MPoly.applyMap, List.mem_map]
  constructor
  · rintro ⟨_, ⟨t, ht, rfl⟩, hx⟩
    exact ⟨t, ht, hx⟩
  · rintro ⟨t, ht, hx⟩
    exact ⟨_, ⟨t, ht, rfl⟩, hx⟩

open Classical in
/-- The structure of polynomials with equality of what they denote in place of `equal`. -/
noncomputable def evalOps (S : SemiRingOps α) (v : α → R) (H : HashOrder) : SemiRingOps (MPoly α) :=
  { S.multi H with equal := fun a b => decide (mpVal v a = mpVal v b) }

theorem evalOps_models (h : S.Models v) (H : HashOrder) : (evalOps S v H).Models (mpVal v) where
  equal a b := by simp [evalOps]
  zero := mpVal_nil v
  one := h.mpOne_val H
  add := h.mpAdd_val
  mul := h.mpMul_val H
  surj r := by obtain ⟨p, _, _, _, hp⟩ := h.exists_mp r; exact ⟨p, hp⟩

theorem mapM_forall {ι β : Type} {f : ι → Option β} {P : β → Prop} (hf : ∀ i y, f i = some y → P y) {l : List ι} {l' : List β}
    (h : l.mapM f = some l') : ∀ y ∈ l', P y := by
  induction l generalizing l' with
  | nil => simp at h; subst h; simp
  | cons a l ih =>
    rw [List.mapM_cons] at h
    cases ha : f a with
    | none => rw [ha] at h; simp at h
    | some b =>
      cases hl : l.mapM f with
      | none => rw [ha, hl] at h; simp at h
      | some l'' =>
        rw [ha, hl] at h
        simp at h
        subst h
        intro y hy
        rcases List.mem_cons.1 hy with rfl | hy
        · exact hf a _ ha
        · exact ih hl y hy

/-- `evaluate` on polynomial values. -/
theorem SemiRingOps.Models.mpEvaluate_constant (h : S.Models v) (H : HashOrder) (g : MPoly α) (values : Nat → Option (MPoly α))
    (f : ℕ → MvPolynomial ℕ R) (hf : ∀ x y, values x = some y → f x = mpVal v y) (hg : ∀ x ∈ g.freeVars, values x ≠ none) :
    ∃ r, (S.multi H).mpEvaluate (g.applyMap MPoly.constant) values = some r ∧ r.WF ∧ r.Reduced v ∧ mpVal v r = aeval f (mpVal v g) := by
  obtain ⟨r, h1, h2⟩ := (evalOps_models h H).mpEvaluate_ok values f hf (g.applyMap MPoly.constant) fun x hx =>
    hg x ((freeVars_applyMap _ _ _).1 hx)
  have h1' : (S.multi H).mpEvaluate (g.applyMap MPoly.constant) values = some r := h1
  refine ⟨r, h1', ?_⟩
  have hval : mpVal v r = aeval f (mpVal v g) := by
    rw [h2, mpVal_applyMap_constant, aeval_def, algebraMap_eq, eval_map]
  rw [SemiRingOps.mpEvaluate] at h1'
  obtain ⟨l, hl, rfl⟩ := Option.map_eq_some_iff.1 h1'
  have hwf := mapM_forall (P := fun q : MPoly α => q.WF) (fun t y hy => by
    obtain ⟨x, _, rfl⟩ := Option.map_eq_some_iff.1 hy
    exact h.mpMul_wf H _ _) hl
  obtain ⟨h3, h4, _⟩ := h.mpSumFold H l id hwf (S.multi H).zero MPoly.nil_wf (fun t ht => by simp [SemiRingOps.multi] at ht)
  exact ⟨h3, h4, hval⟩

theorem lookupLast_none {β : Type} {l : List (ℕ × β)} {x : ℕ} : lookupLast l x = none ↔ x ∉ l.map Prod.fst := by
  rw [lookupLast, Option.map_eq_none_iff, List.find?_eq_none]
  simp only [List.mem_reverse, decide_eq_true_eq, List.mem_map, not_exists, not_and]

theorem lookupLast_some {β : Type} {l : List (ℕ × β)} {x : ℕ} {y : β} (h : lookupLast l x = some y) : (x, y) ∈ l := by
  rw [lookupLast] at h
  obtain ⟨e, he, rfl⟩ := Option.map_eq_some_iff.1 h
  have h1 := List.mem_of_find?_eq_some he
  have h2 := List.find?_some he
  simp only [decide_eq_true_eq] at h2
  subst h2
  simpa using h1

theorem SemiRingOps.Models.symValues (h : S.Models v) (H : HashOrder) (e vars : List ℕ) {k : ℕ} (hk : k ≤ e.length) :
    ∃ l, S.symValues H e vars k = some l ∧ l.map Prod.fst = e.take k ∧
      ∀ p ∈ l, ∃ i, i < k ∧ e[i]? = some p.1 ∧ mpVal v p.2 = esymIn R (i + 1) vars := by
  choose es hes using fun i => h.mpElementarySymmetric H (i + 1) vars
  have key : ∀ i ∈ List.range k, ((do
      let x ← e[i]?
      let y ← S.mpElementarySymmetric H (i + 1) vars
      some (x, y) : Option (ℕ × MPoly α))) = some (e.getD i 0, es i) := by
    intro i hi
    have hi' : i < e.length := lt_of_lt_of_le (List.mem_range.1 hi) hk
    rw [(hes i).1]
    simp [hi']
  refine ⟨_, Sets.mapM_some_of _ _ _ key, ?_, ?_⟩
  · rw [List.map_map]
    apply List.ext_getElem
    · simp [hk]
    · intro i h1 h2
      simp at h1
      simp [lt_of_lt_of_le h1 hk]
  · intro p hp
    obtain ⟨i, hi, rfl⟩ := List.mem_map.1 hp
    have hi' : i < e.length := lt_of_lt_of_le (List.mem_range.1 hi) hk
    exact ⟨i, List.mem_range.1 hi, by simp [hi'], (hes i).2.2.2⟩

/-- Substituting the elementary symmetric polynomials for the first `k` of the variables `e`. -/
theorem SemiRingOps.Models.symEvaluate (h : S.Models v) (H : HashOrder) {e : List ℕ} (he : e.Nodup) (vars : List ℕ) {k : ℕ}
    (hk : k ≤ e.length) (g : MPoly α) (hg : ∀ x ∈ g.freeVars, x ∈ e.take k) :
    ∃ l r, S.symValues H e vars k = some l ∧ (S.multi H).mpEvaluate (g.applyMap MPoly.constant) (lookupLast l) = some r ∧
      r.WF ∧ r.Reduced v ∧ mpVal v r = aeval (esymSubst R e vars) (mpVal v g) := by
  obtain ⟨l, h1, h2, h3⟩ := h.symValues H e vars hk
  obtain ⟨r, h4, h5⟩ := h.mpEvaluate_constant H g (lookupLast l) (fun x => ((lookupLast l x).map (mpVal v)).getD (esymSubst R e vars x))
    (fun x y hy => by simp [hy]) (fun x hx => by rw [Ne, lookupLast_none, h2, not_not]; exact hg x hx)
  refine ⟨l, r, h1, h4, h5.1, h5.2.1, h5.2.2.trans ?_⟩
  congr 2
  funext x
  cases hx : lookupLast l x with
  | none => rfl
  | some y =>
    obtain ⟨i, hi, hei, hv⟩ := h3 _ (lookupLast_some hx)
    obtain ⟨hi', hei'⟩ := List.getElem?_eq_some_iff.1 hei
    simp only at hei' hv
    have hxe : x ∈ e := hei' ▸ List.getElem_mem hi'
    rw [esymSubst, if_pos hxe, ← hei', he.idxOf_getElem]
    simpa using hv

end

end Verif.Rings
