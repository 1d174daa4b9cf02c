import Verif.Proofs.MultiPolyRing
import Verif.Proofs.MatrixStore
import Mathlib.RingTheory.MvPolynomial.Homogeneous
import Mathlib.Algebra.MvPolynomial.Rename
import Mathlib.Algebra.MvPolynomial.Supported

/-!
# Reading, evaluating, renaming and homogenizing polynomials in several variables
-/

namespace Verif.Rings

open MvPolynomial

/-! ## Variables and degree -/

section Val
variable {α R : Type} [CommSemiring R] (v : α → R)

theorem mem_freeVars_raw (p : MPoly α) (x : ℕ) : x ∈ p.freeVars ↔ ∃ t ∈ p, x ∈ t.2.map Prod.fst := by
  simp only [MPoly.freeVars, List.mem_dedup, List.mem_flatMap, Mono.freeVars]

theorem mem_freeVars {p : MPoly α} (hp : p.WF) (hr : p.Reduced v) (x : ℕ) : x ∈ p.freeVars ↔ x ∈ (mpVal v p).vars := by
  rw [mem_freeVars_raw, mem_vars]
  constructor
  · rintro ⟨t, ht, hx⟩
    exact ⟨monoVal t.2, (mem_support_mpVal v hp hr _).2 ⟨t, ht, rfl⟩,
      Finsupp.mem_support_iff.2 ((monoVal_ne_zero_iff (hp.mono t ht) x).2 hx)⟩
  · rintro ⟨d, hd, hx⟩
    obtain ⟨t, ht, rfl⟩ := (mem_support_mpVal v hp hr _).1 hd
    exact ⟨t, ht, (monoVal_ne_zero_iff (hp.mono t ht) x).1 (Finsupp.mem_support_iff.1 hx)⟩

/-- A free variable is a variable of the polynomial it denotes, even if some coefficients are zero. -/
theorem vars_subset_freeVars {p : MPoly α} (hp : p.WF) {x : ℕ} (hx : x ∈ (mpVal v p).vars) : x ∈ p.freeVars := by
  rw [mem_vars] at hx
  obtain ⟨d, hd, hx⟩ := hx
  obtain ⟨t, ht, rfl⟩ := coeff_mpVal_ne v (mem_support_iff.1 hd)
  exact (mem_freeVars_raw _ _).2 ⟨t, ht, (monoVal_ne_zero_iff (hp.mono t ht) x).1 (Finsupp.mem_support_iff.1 hx)⟩

theorem totalDegree_eq_sup (q : MvPolynomial ℕ R) : q.totalDegree = q.support.sup Finsupp.degree := rfl

theorem mpVal_eq_zero_iff {p : MPoly α} (hp : p.WF) (hr : p.Reduced v) : mpVal v p = 0 ↔ p = [] := by
  constructor
  · intro h
    cases p with
    | nil => rfl
    | cons t p =>
      have := (mem_support_mpVal v hp hr (monoVal t.2)).2 ⟨t, List.mem_cons_self, rfl⟩
      rw [h] at this
      simp at this
  · rintro rfl
    exact mpVal_nil v

theorem MPoly.degree_none (p : MPoly α) : p.degree = none ↔ p = [] := by
  simp [MPoly.degree, List.max?_eq_none_iff]

theorem MPoly.degree_le_raw {p : MPoly α} {d : Nat} (h : p.degree = some d) : ∀ t ∈ p, Mono.degree t.2 ≤ d := by
  intro t ht
  exact (List.max?_eq_some_iff.1 h).2 _ (List.mem_map.2 ⟨t, ht, rfl⟩)

theorem MPoly.degree_eq {p : MPoly α} (hp : p.WF) (hr : p.Reduced v) {d : Nat} (h : p.degree = some d) :
    (mpVal v p).totalDegree = d := by
  obtain ⟨h1, h2⟩ := List.max?_eq_some_iff.1 h
  rw [totalDegree_eq_sup]
  apply le_antisymm
  · apply Finset.sup_le
    intro s hs
    obtain ⟨t, ht, rfl⟩ := (mem_support_mpVal v hp hr s).1 hs
    rw [← Mono.degree_eq]
    exact h2 _ (List.mem_map.2 ⟨t, ht, rfl⟩)
  · obtain ⟨t, ht, rfl⟩ := List.mem_map.1 h1
    rw [Mono.degree_eq]
    exact Finset.le_sup (f := Finsupp.degree) ((mem_support_mpVal v hp hr _).2 ⟨t, ht, rfl⟩)

/-! ## Filters -/

/-- Keeping the terms whose exponent vector satisfies `P` keeps the coefficients at those exponent vectors. -/
theorem coeff_mpVal_filter (P : (ℕ →₀ ℕ) → Prop) [DecidablePred P] (f : α × Mono → Bool) (p : MPoly α)
    (hf : ∀ t ∈ p, f t = true ↔ P (monoVal t.2)) (s : ℕ →₀ ℕ) :
    coeff s (mpVal v (p.filter f)) = if P s then coeff s (mpVal v p) else 0 := by
  induction p with
  | nil => simp [mpVal_nil]
  | cons t p ih =>
    have ih := ih fun t ht => hf t (List.mem_cons_of_mem _ ht)
    have ht := hf t List.mem_cons_self
    by_cases hP : P (monoVal t.2)
    · rw [List.filter_cons_of_pos (ht.2 hP), mpVal_cons, mpVal_cons, coeff_add, coeff_add, ih, coeff_monomial]
      by_cases hs : monoVal t.2 = s
      · subst hs; rw [if_pos hP, if_pos rfl, if_pos hP]
      · rw [if_neg hs, zero_add, zero_add]
    · rw [List.filter_cons_of_neg (fun h => hP (ht.1 h)), ih, mpVal_cons, coeff_add, coeff_monomial]
      by_cases hs : monoVal t.2 = s
      · subst hs; rw [if_neg hP, if_neg hP]
      · rw [if_neg hs, zero_add]

theorem MPoly.reduced_filter {p : MPoly α} (hr : p.Reduced v) (f : α × Mono → Bool) :
    MPoly.Reduced v (p.filter f) := fun t ht => hr t (List.mem_filter.1 ht).1

theorem monomial_evalZero (s : ℕ →₀ ℕ) (c : R) (x : ℕ) :
    aeval (fun i => if i = x then (0 : MvPolynomial ℕ R) else X i) (monomial s c) =
      if s x = 0 then monomial s c else 0 := by
  rw [aeval_monomial]
  split_ifs with h
  · rw [monomial_eq, algebraMap_eq]
    congr 1
    apply Finsupp.prod_congr
    intro i hi
    rw [if_neg]
    rintro rfl
    exact (Finsupp.mem_support_iff.1 hi) h
  · rw [Finsupp.prod, Finset.prod_eq_zero (i := x) (Finsupp.mem_support_iff.2 h) (by simp [h]), mul_zero]

theorem mpVal_evaluateVarZero {p : MPoly α} (hp : ∀ t ∈ p, Mono.WF t.2) (x : ℕ) :
    mpVal v (p.evaluateVarZero x) = aeval (fun i => if i = x then (0 : MvPolynomial ℕ R) else X i) (mpVal v p) := by
  induction p with
  | nil => simp [MPoly.evaluateVarZero, mpVal_nil]
  | cons t p ih =>
    have ih := ih fun t ht => hp t (List.mem_cons_of_mem _ ht)
    have ht := Mono.getVarPow_eq (hp t List.mem_cons_self) x
    rw [MPoly.evaluateVarZero] at ih ⊢
    rw [mpVal_cons, map_add, monomial_evalZero, ← ih]
    by_cases h : monoVal t.2 x = 0
    · rw [List.filter_cons_of_pos (by simp [ht, h]), mpVal_cons, if_pos h]
    · rw [List.filter_cons_of_neg (by simp [ht, h]), if_neg h, zero_add]

/-! ## Splitting by degree -/

theorem pushByDegree_keys (t : α × Mono) (l : List (Nat × MPoly α)) (h : (l.map Prod.fst).Nodup) :
    ((pushByDegree t l).map Prod.fst).Nodup ∧
      ∀ d, d ∈ (pushByDegree t l).map Prod.fst ↔ d = Mono.degree t.2 ∨ d ∈ l.map Prod.fst := by
  induction l with
  | nil => simp [pushByDegree]
  | cons e l ih =>
    obtain ⟨d, q⟩ := e
    simp only [List.map_cons, List.nodup_cons] at h
    obtain ⟨h1, h2⟩ := ih h.2
    rw [pushByDegree]
    split_ifs with hk
    · subst hk
      refine ⟨by simpa using h, by simp⟩
    · refine ⟨?_, ?_⟩
      · simp only [List.map_cons, List.nodup_cons]
        refine ⟨fun hm => ?_, h1⟩
        rcases (h2 d).1 hm with h' | h'
        · exact hk h'
        · exact h.1 h'
      · intro k'
        simp only [List.map_cons, List.mem_cons, h2]; tauto

theorem pushByDegree_mem (t : α × Mono) (l : List (Nat × MPoly α)) (e : Nat × MPoly α) (he : e ∈ pushByDegree t l)
    (h : (l.map Prod.fst).Nodup) :
    (e ∈ l ∧ e.1 ≠ Mono.degree t.2) ∨ (e.1 = Mono.degree t.2 ∧
      ((∃ q, (e.1, q) ∈ l ∧ e.2 = q ++ [t]) ∨ (e.1 ∉ l.map Prod.fst ∧ e.2 = [t]))) := by
  induction l with
  | nil =>
    simp only [pushByDegree, List.mem_singleton] at he
    subst he
    exact .inr ⟨rfl, .inr ⟨by simp, rfl⟩⟩
  | cons f l ih =>
    obtain ⟨d, q⟩ := f
    simp only [List.map_cons, List.nodup_cons] at h
    rw [pushByDegree] at he
    split_ifs at he with hk
    · rcases List.mem_cons.1 he with rfl | he
      · exact .inr ⟨hk, .inl ⟨q, List.mem_cons_self, rfl⟩⟩
      · refine .inl ⟨List.mem_cons_of_mem _ he, ?_⟩
        intro hd
        exact h.1 (List.mem_map.2 ⟨e, he, by rw [hd, hk]⟩)
    · rcases List.mem_cons.1 he with rfl | he
      · exact .inl ⟨List.mem_cons_self, hk⟩
      · rcases ih he h.2 with h' | ⟨h1, h2 | h2⟩
        · exact .inl ⟨List.mem_cons_of_mem _ h'.1, h'.2⟩
        · obtain ⟨q', hq', hq⟩ := h2
          exact .inr ⟨h1, .inl ⟨q', List.mem_cons_of_mem _ hq', hq⟩⟩
        · refine .inr ⟨h1, .inr ⟨?_, h2.2⟩⟩
          simp only [List.map_cons, List.mem_cons, not_or]
          exact ⟨fun h' => hk (h'.symm.trans h1), h2.1⟩

/-- What `split_by_degree` collects. -/
structure SplitOk (p : MPoly α) (l : List (Nat × MPoly α)) : Prop where
  nodup : (l.map Prod.fst).Nodup
  part : ∀ e ∈ l, e.2 = p.filter (fun t => Mono.degree t.2 = e.1) ∧ e.2 ≠ []
  all : ∀ t ∈ p, Mono.degree t.2 ∈ l.map Prod.fst

theorem SplitOk.push {p : MPoly α} {l : List (Nat × MPoly α)} (h : SplitOk p l) (t : α × Mono) :
    SplitOk (p ++ [t]) (pushByDegree t l) := by
  obtain ⟨h1, h2⟩ := pushByDegree_keys t l h.nodup
  refine ⟨h1, ?_, ?_⟩
  · intro e he
    rw [List.filter_append]
    rcases pushByDegree_mem t l e he h.nodup with ⟨hm, hd⟩ | ⟨hd, ⟨q, hq, he2⟩ | ⟨hn, he2⟩⟩
    · obtain ⟨h3, h4⟩ := h.part e hm
      refine ⟨?_, h4⟩
      rw [List.filter_cons_of_neg (by simpa using fun h => hd h.symm), List.filter_nil, List.append_nil, ← h3]
    · obtain ⟨h3, h4⟩ := h.part _ hq
      rw [List.filter_cons_of_pos (by simpa using hd.symm), List.filter_nil, he2]
      refine ⟨?_, by simp⟩
      simp only at h3
      rw [h3]
    · rw [List.filter_cons_of_pos (by simpa using hd.symm), List.filter_nil, he2]
      refine ⟨?_, by simp⟩
      have : p.filter (fun t => decide (Mono.degree t.2 = e.1)) = [] := by
        rw [List.filter_eq_nil_iff]
        intro s hs hse
        exact hn ((of_decide_eq_true hse) ▸ h.all s hs)
      rw [this, List.nil_append]
  · intro s hs
    rw [h2]
    rcases List.mem_append.1 hs with hs | hs
    · exact .inr (h.all s hs)
    · simp only [List.mem_singleton] at hs
      exact .inl (hs ▸ rfl)

theorem SplitOk.fold (p q : MPoly α) (l : List (Nat × MPoly α)) (h : SplitOk q l) :
    SplitOk (q ++ p) (p.foldl (fun acc t => pushByDegree t acc) l) := by
  induction p generalizing q l with
  | nil => simpa using h
  | cons t p ih => simpa using ih (q ++ [t]) _ (h.push t)

theorem splitByDegree_ok (H : HashOrder) (p : MPoly α) : SplitOk p (p.splitByDegree H) := by
  have h := SplitOk.fold p [] [] ⟨by simp, by simp, by simp⟩
  rw [List.nil_append] at h
  have hp := H.perm (p.foldl (fun acc t => pushByDegree t acc) [])
  exact ⟨(hp.map _).nodup_iff.2 h.nodup, fun e he => h.part e (hp.mem_iff.1 he),
    fun t ht => (hp.map _).mem_iff.2 (h.all t ht)⟩

theorem mpVal_filter_degree (p : MPoly α) (d : Nat) :
    mpVal v (p.filter fun t => Mono.degree t.2 = d) = homogeneousComponent d (mpVal v p) := by
  ext s
  rw [coeff_mpVal_filter v (fun s => s.degree = d) _ p (fun t _ => by simp [Mono.degree_eq]), coeff_homogeneousComponent]

/-- The parts add up to the polynomial. -/
theorem splitByDegree_sum (H : HashOrder) (p : MPoly α) :
    ((p.splitByDegree H).map fun e => mpVal v e.2).sum = mpVal v p := by
  have h := splitByDegree_ok H p
  generalize p.splitByDegree H = l at h
  obtain ⟨h1, h2, h3⟩ := h
  have h4 : (l.map fun e => mpVal v e.2) = (l.map Prod.fst).map fun d => homogeneousComponent d (mpVal v p) := by
    rw [List.map_map]
    apply List.map_congr_left
    intro e he
    rw [(h2 e he).1, mpVal_filter_degree]; rfl
  rw [h4]
  ext s
  have h5 : coeff s (((l.map Prod.fst).map fun d => homogeneousComponent d (mpVal v p)).sum) =
      ((l.map Prod.fst).map fun d => if s.degree = d then coeff s (mpVal v p) else 0).sum := by
    clear * -
    induction l.map Prod.fst with
    | nil => simp
    | cons d ds ih => simp only [List.map_cons, List.sum_cons, coeff_add, ih, coeff_homogeneousComponent]
  rw [h5]
  by_cases hs : coeff s (mpVal v p) = 0
  · rw [hs]
    apply List.sum_eq_zero
    intro a ha
    obtain ⟨_, _, rfl⟩ := List.mem_map.1 ha
    split_ifs <;> rfl
  · obtain ⟨t, ht, rfl⟩ := coeff_mpVal_ne v hs
    have hm := h3 t ht
    rw [Mono.degree_eq] at hm
    generalize (monoVal t.2).degree = d at hm
    generalize coeff (monoVal t.2) (mpVal v p) = c
    generalize l.map Prod.fst = ds at h1 hm
    clear * - h1 hm
    induction ds with
    | nil => simp at hm
    | cons e ds ih =>
      rw [List.nodup_cons] at h1
      rcases List.mem_cons.1 hm with rfl | hm'
      · have : (ds.map fun d' => if d = d' then c else 0).sum = 0 := by
          apply List.sum_eq_zero
          simp only [List.mem_map]
          rintro _ ⟨d', hd', rfl⟩
          rw [if_neg]
          rintro rfl
          exact h1.1 hd'
        simp [this]
      · have : d ≠ e := by rintro rfl; exact h1.1 hm'
        simp [this, ih h1.2 hm']

end Val

/-! ## Evaluation -/

section Eval
variable {α R : Type} [CommSemiring R] {S : SemiRingOps α} {v : α → R}

theorem eval_monomial_monoVal (f : ℕ → R) (m : Mono) (c : R) :
    eval f (monomial (monoVal m) c) = c * (m.map fun e => f e.1 ^ e.2).prod := by
  rw [eval_monomial]
  congr 1
  induction m with
  | nil => simp [monoVal_nil]
  | cons e m ih =>
    rw [monoVal_cons, Finsupp.prod_add_index' (by simp) (by intros; rw [pow_add]), ih,
      Finsupp.prod_single_index (by simp)]
    simp

theorem mapM_eq_none_of {ι β : Type} {f : ι → Option β} {l : List ι} {a : ι} (ha : a ∈ l) (hf : f a = none) :
    l.mapM f = none := by
  induction l with
  | nil => simp at ha
  | cons b l ih =>
    rw [List.mapM_cons]
    rcases List.mem_cons.1 ha with rfl | ha
    · simp [hf]
    · cases h : f b with
      | none => rfl
      | some y => simp [ih ha]

theorem SemiRingOps.Models.monoEvaluate (h : S.Models v) (values : Nat → Option α) (f : ℕ → R)
    (hf : ∀ x y, values x = some y → f x = v y) (m : Mono) (hm : ∀ e ∈ m, values e.1 ≠ none) :
    ∃ y, S.monoEvaluate values m = some y ∧ v y = (m.map fun e => f e.1 ^ e.2).prod := by
  have key : m.mapM (fun (e : Nat × Nat) => (values e.1).map fun x => S.natPow x e.2) =
      some (m.map fun e => S.natPow ((values e.1).getD S.zero) e.2) := by
    apply mapM_eq_map
    intro e he
    cases hv : values e.1 with
    | none => exact (hm e he hv).elim
    | some y => rfl
  refine ⟨S.product (m.map fun e => S.natPow ((values e.1).getD S.zero) e.2), ?_, ?_⟩
  · rw [SemiRingOps.monoEvaluate, key]; rfl
  · rw [h.product, List.map_map]
    congr 1
    apply List.map_congr_left
    intro e he
    cases hv : values e.1 with
    | none => exact (hm e he hv).elim
    | some y => simp [h.natPow, hf _ _ hv, hv]

theorem SemiRingOps.Models.mpEvaluate_ok (h : S.Models v) (values : Nat → Option α) (f : ℕ → R)
    (hf : ∀ x y, values x = some y → f x = v y) (p : MPoly α) (hp : ∀ x ∈ p.freeVars, values x ≠ none) :
    ∃ y, S.mpEvaluate p values = some y ∧ v y = eval f (mpVal v p) := by
  have hp' : ∀ t ∈ p, ∀ e ∈ t.2, values e.1 ≠ none := fun t ht e he =>
    hp _ ((mem_freeVars_raw p e.1).2 ⟨t, ht, List.mem_map.2 ⟨e, he, rfl⟩⟩)
  clear hp
  have key : ∃ l, p.mapM (fun (t : α × Mono) => (S.monoEvaluate values t.2).map fun x => S.mul t.1 x) = some l ∧
      (l.map v).sum = eval f (mpVal v p) := by
    induction p with
    | nil => exact ⟨[], rfl, by simp [mpVal_nil]⟩
    | cons t p ih =>
      obtain ⟨l, h1, h2⟩ := ih fun t ht => hp' t (List.mem_cons_of_mem _ ht)
      obtain ⟨y, h3, h4⟩ := h.monoEvaluate values f hf t.2 (hp' t List.mem_cons_self)
      refine ⟨S.mul t.1 y :: l, ?_, ?_⟩
      · rw [List.mapM_cons, h3, h1]; rfl
      · rw [List.map_cons, List.sum_cons, h2, h.mul, h4, mpVal_cons, map_add, eval_monomial_monoVal]
  obtain ⟨l, h1, h2⟩ := key
  exact ⟨S.sum l, by rw [SemiRingOps.mpEvaluate, h1]; rfl, by rw [h.sum, h2]⟩

theorem SemiRingOps.mpEvaluate_none (S : SemiRingOps α) (values : Nat → Option α) (p : MPoly α) {x : ℕ}
    (hx : x ∈ p.freeVars) (hv : values x = none) : S.mpEvaluate p values = none := by
  obtain ⟨t, ht, hx⟩ := (mem_freeVars_raw p x).1 hx
  obtain ⟨e, he, rfl⟩ := List.mem_map.1 hx
  have h1 : S.monoEvaluate values t.2 = none := by
    rw [SemiRingOps.monoEvaluate, mapM_eq_none_of he (by rw [hv]; rfl)]; rfl
  rw [SemiRingOps.mpEvaluate, mapM_eq_none_of ht (by rw [h1]; rfl)]; rfl

end Eval

/-! ## Renaming variables -/

section Rename
variable {α R : Type} [CommSemiring R] (v : α → R)

theorem rename_monomial_monoVal (g : ℕ → ℕ) (m : Mono) (c : R) :
    rename g (monomial (monoVal m) c) = monomial (monoVal (m.map fun e => (g e.1, e.2))) c := by
  rw [rename_monomial]
  congr 2
  induction m with
  | nil => simp [monoVal_nil]
  | cons e m ih => rw [List.map_cons, monoVal_cons, monoVal_cons, Finsupp.mapDomain_add, ih, Finsupp.mapDomain_single]

theorem Mono.mapVars_some (f : Nat → Option Nat) (g : Nat → Nat) (m : Mono) (h : ∀ e ∈ m, f e.1 = some (g e.1)) :
    Mono.mapVars f m = some (Mono.new (m.map fun e => (g e.1, e.2))) := by
  rw [Mono.mapVars, mapM_eq_map m (g := fun e => (g e.1, e.2)) (fun e he => by rw [h e he]; rfl)]
  rfl

theorem MPoly.applyMapVars_some (f : Nat → Option Nat) (g : Nat → Nat) (p : MPoly α)
    (h : ∀ x ∈ p.freeVars, f x = some (g x)) :
    p.applyMapVars f = some (p.map fun t => (t.1, Mono.new (t.2.map fun e => (g e.1, e.2)))) := by
  rw [MPoly.applyMapVars, mapM_eq_map p (g := fun t => (t.1, Mono.new (t.2.map fun e => (g e.1, e.2))))]
  intro t ht
  rw [Mono.mapVars_some f g t.2 fun e he => h _ ((mem_freeVars_raw p _).2 ⟨t, ht, List.mem_map.2 ⟨e, he, rfl⟩⟩)]
  rfl

theorem MPoly.applyMapVars_none (f : Nat → Option Nat) (p : MPoly α) {x : ℕ} (hx : x ∈ p.freeVars) (hf : f x = none) :
    p.applyMapVars f = none := by
  obtain ⟨t, ht, hx⟩ := (mem_freeVars_raw p x).1 hx
  obtain ⟨e, he, rfl⟩ := List.mem_map.1 hx
  have h1 : Mono.mapVars f t.2 = none := by
    rw [Mono.mapVars, mapM_eq_none_of he (by rw [hf]; rfl)]; rfl
  rw [MPoly.applyMapVars, mapM_eq_none_of ht (by rw [h1]; rfl)]

theorem mpVal_applyMapVars (g : ℕ → ℕ) (p : MPoly α) :
    mpVal v (p.map fun t => (t.1, Mono.new (t.2.map fun e => (g e.1, e.2)))) = rename g (mpVal v p) := by
  induction p with
  | nil => simp [mpVal_nil]
  | cons t p ih => rw [List.map_cons, mpVal_cons, ih, mpVal_cons, map_add, rename_monomial_monoVal, monoVal_new]

theorem applyMapVars_wf (g : ℕ → ℕ) {p : MPoly α} (hp : p.WF) (hg : Set.InjOn g {x | x ∈ p.freeVars}) :
    MPoly.WF (p.map fun t => (t.1, Mono.new (t.2.map fun e => (g e.1, e.2)))) := by
  have hfree : ∀ t ∈ p, ∀ e ∈ t.2, e.1 ∈ p.freeVars := fun t ht e he =>
    (mem_freeVars_raw p _).2 ⟨t, ht, List.mem_map.2 ⟨e, he, rfl⟩⟩
  have hnd : ∀ t ∈ p, ((t.2.map fun e => (g e.1, e.2)).map Prod.fst).Nodup := by
    intro t ht
    rw [List.map_map]
    apply List.Nodup.map_on
    · intro e he f hf hef
      have h1 : e.1 = f.1 := hg (hfree t ht e he) (hfree t ht f hf) hef
      have h2 := monoVal_mem (hp.mono t ht) he
      have h3 := monoVal_mem (hp.mono t ht) hf
      rw [h1, h3] at h2
      exact Prod.ext h1 h2.symm
    · exact (hp.mono t ht).1.imp fun h he => by rw [he] at h; exact lt_irrefl _ h
  refine ⟨?_, ?_⟩
  · intro t ht
    obtain ⟨s, hs, rfl⟩ := List.mem_map.1 ht
    exact Mono.new_wf (hnd s hs)
  · rw [List.map_map]
    have hinj : ∀ s ∈ p, ∀ t ∈ p, Mono.new (s.2.map fun e => (g e.1, e.2)) = Mono.new (t.2.map fun e => (g e.1, e.2)) →
        s.2 = t.2 := by
      intro s hs t ht h
      apply monoVal_inj (hp.mono s hs) (hp.mono t ht)
      have h1 := congrArg monoVal h
      rw [monoVal_new, monoVal_new] at h1
      have hdom : ∀ m : Mono, monoVal (m.map fun e => (g e.1, e.2)) = Finsupp.mapDomain g (monoVal m) := by
        intro m
        induction m with
        | nil => simp [monoVal_nil]
        | cons e m ih => rw [List.map_cons, monoVal_cons, monoVal_cons, Finsupp.mapDomain_add, ih, Finsupp.mapDomain_single]
      rw [hdom, hdom] at h1
      have hsup : ∀ t ∈ p, ((monoVal t.2).support : Set ℕ) ⊆ {x | x ∈ p.freeVars} := by
        intro t ht x hx
        have := (monoVal_ne_zero_iff (hp.mono t ht) x).1 (Finsupp.mem_support_iff.1 hx)
        exact (mem_freeVars_raw p _).2 ⟨t, ht, this⟩
      exact Finsupp.mapDomain_injOn _ hg (hsup s hs) (hsup t ht) h1
    have hn := hp.nodup
    rw [List.Nodup, List.pairwise_map] at hn ⊢
    exact hn.imp_of_mem fun {s t} hs ht h he => h (hinj s hs t ht he)

end Rename

end Verif.Rings
