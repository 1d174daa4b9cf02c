import Verif.Proofs.MultiPolyRead

/-!
# Expanding in one variable, homogenizing
-/

namespace Verif.Rings

open MvPolynomial

section Expand
variable {α R : Type} [CommSemiring R] {S : SemiRingOps α} {v : α → R}

theorem Mono.erase_wf {m : Mono} (h : m.WF) (x : ℕ) : (Mono.erase m x).WF := by
  apply Mono.new_wf
  refine List.Nodup.sublist (List.filter_sublist.map _) ?_
  exact List.pairwise_map.2 (h.1.imp fun h => h.ne)

theorem monoVal_erase (m : Mono) (x : ℕ) :
    monoVal m = monoVal (Mono.erase m x) + Finsupp.single x (monoVal m x) := by
  rw [Mono.erase, monoVal_new]
  induction m with
  | nil => simp [monoVal_nil]
  | cons e m ih =>
    by_cases h : e.1 = x
    · rw [List.filter_cons_of_neg (by simpa using h), monoVal_cons, Finsupp.add_apply, Finsupp.single_add, ← h,
        Finsupp.single_eq_same]
      rw [h] at *
      conv_lhs => rw [ih]
      abel
    · rw [List.filter_cons_of_pos (by simpa using h), monoVal_cons, monoVal_cons, Finsupp.add_apply,
        Finsupp.single_eq_of_ne (Ne.symm h), zero_add]
      conv_lhs => rw [ih]
      abel

theorem monoVal_erase_apply (m : Mono) (x y : ℕ) : monoVal (Mono.erase m x) y = if y = x then 0 else monoVal m y := by
  split_ifs with h
  · subst h
    rw [Mono.erase, monoVal_new]
    apply monoVal_apply_eq_zero
    intro e he
    simpa using (List.mem_filter.1 he).2
  · have := DFunLike.congr_fun (monoVal_erase m x) y
    rw [Finsupp.add_apply, Finsupp.single_eq_of_ne h, add_zero] at this
    exact this.symm

theorem polyVal_modify {β Q : Type} [CommSemiring Q] (w : β → Q) (L : List β) (k : Nat) (hk : k < L.length) (f : β → β)
    (c : Q) (hf : w (f L[k]) = w L[k] + c) :
    polyVal w (L.modify k f) = polyVal w L + Polynomial.C c * Polynomial.X ^ k := by
  induction L generalizing k with
  | nil => simp at hk
  | cons a L ih =>
    cases k with
    | zero =>
      simp only [List.getElem_cons_zero] at hf
      simp only [List.modify_zero_cons, polyVal_cons, hf, map_add, pow_zero, mul_one]
      ring
    | succ k =>
      simp only [List.getElem_cons_succ] at hf
      simp only [List.modify_succ_cons, polyVal_cons, ih k (by simpa using hk) hf, pow_succ]
      ring

theorem polyVal_padTo (L : List (MPoly α)) (k : Nat) : polyVal (mpVal v) (padTo L k) = polyVal (mpVal v) L := by
  rw [padTo, polyVal_append, polyVal_replicate _ _ _ (mpVal_nil v), mul_zero, add_zero]

theorem padTo_length (L : List (MPoly α)) (k : Nat) : k < (padTo L k).length := by
  simp [padTo]; omega

theorem SemiRingOps.Models.mpExpandStep_val (h : S.Models v) (x : ℕ) (L : List (MPoly α)) {t : α × Mono} (ht : t.2.WF) :
    (polyVal (mpVal v) (S.mpExpandStep x L t)).eval (X x) =
      (polyVal (mpVal v) L).eval (X x) + monomial (monoVal t.2) (v t.1) := by
  rw [SemiRingOps.mpExpandStep]
  rw [polyVal_modify (mpVal v) _ _ (padTo_length _ _) _ (monomial (monoVal (Mono.erase t.2 x)) (v t.1))
    (by rw [h.mpAdd_val, mpVal_single]), polyVal_padTo, Polynomial.eval_add, Polynomial.eval_mul, Polynomial.eval_C,
    Polynomial.eval_pow, Polynomial.eval_X, Mono.getVarPow_eq ht]
  congr 1
  conv_rhs => rw [monoVal_erase t.2 x]
  rw [X_pow_eq_monomial, monomial_mul, mul_one]

theorem SemiRingOps.Models.mpExpand_val (h : S.Models v) (x : ℕ) {p : MPoly α} (hp : ∀ t ∈ p, Mono.WF t.2) :
    (polyVal (mpVal v) (S.mpExpand p x)).eval (X x) = mpVal v p := by
  have key : ∀ (p : MPoly α) (L : List (MPoly α)), (∀ t ∈ p, Mono.WF t.2) →
      (polyVal (mpVal v) (p.foldl (S.mpExpandStep x) L)).eval (X x) =
        (polyVal (mpVal v) L).eval (X x) + mpVal v p := by
    intro p
    induction p with
    | nil => intro L _; simp [mpVal_nil]
    | cons t p ih =>
      intro L hp
      rw [List.foldl_cons, ih _ fun t ht => hp t (List.mem_cons_of_mem _ ht),
        h.mpExpandStep_val x L (hp t List.mem_cons_self), mpVal_cons]
      ring
  rw [SemiRingOps.mpExpand, key p [] hp]
  simp

/-- The coefficients of an expansion. -/
theorem SemiRingOps.Models.mpExpand_coeffs (h : S.Models v) (x : ℕ) {p : MPoly α} (hp : ∀ t ∈ p, Mono.WF t.2) :
    ∀ c ∈ S.mpExpand p x, c.WF ∧ c.Reduced v ∧ mpVal v c ∈ supported R {y | y ≠ x ∧ y ∈ p.freeVars} := by
  have key : ∀ (W : Set ℕ) (q : MPoly α) (L : List (MPoly α)), (∀ t ∈ q, Mono.WF t.2) →
      (∀ t ∈ q, ∀ y ∈ t.2.map Prod.fst, y ≠ x → y ∈ W) →
      (∀ c ∈ L, c.WF ∧ c.Reduced v ∧ mpVal v c ∈ supported R W) →
      ∀ c ∈ q.foldl (S.mpExpandStep x) L, c.WF ∧ c.Reduced v ∧ mpVal v c ∈ supported R W := by
    intro W q
    induction q with
    | nil => intro L _ _ hL; exact hL
    | cons t q ih =>
      intro L hq hW hL
      rw [List.foldl_cons]
      refine ih _ (fun t ht => hq t (List.mem_cons_of_mem _ ht)) (fun t ht => hW t (List.mem_cons_of_mem _ ht)) ?_
      have ht := hq t List.mem_cons_self
      have hL' : ∀ c ∈ padTo L (Mono.getVarPow t.2 x), c.WF ∧ c.Reduced v ∧ mpVal v c ∈ supported R W := by
        intro c hc
        rw [padTo, List.mem_append] at hc
        rcases hc with hc | hc
        · exact hL c hc
        · rw [(List.mem_replicate.1 hc).2]
          exact ⟨MPoly.nil_wf, fun t ht => by simp at ht, by rw [mpVal_nil]; exact Subalgebra.zero_mem _⟩
      intro c hc
      rw [SemiRingOps.mpExpandStep] at hc
      rw [List.mem_iff_getElem] at hc
      obtain ⟨i, hi, rfl⟩ := hc
      rw [List.getElem_modify]
      have hi' : i < (padTo L (Mono.getVarPow t.2 x)).length := by simpa using hi
      split_ifs with hk
      · obtain ⟨h1, h2, h3⟩ := hL' _ (List.getElem_mem hi')
        have hs : MPoly.WF [(t.1, Mono.erase t.2 x)] := MPoly.single_wf (Mono.erase_wf ht x)
        refine ⟨h.mpAdd_wf h1 hs, h.mpAdd_reduced _ _, ?_⟩
        rw [h.mpAdd_val, mpVal_single]
        refine Subalgebra.add_mem _ h3 ?_
        rw [mem_supported]
        intro y hy
        by_cases h0 : v t.1 = 0
        · rw [h0, monomial_zero] at hy
          simp at hy
        · rw [vars_monomial h0] at hy
          have hy' := Finsupp.mem_support_iff.1 (Finset.mem_coe.1 hy)
          rw [monoVal_erase_apply] at hy'
          split_ifs at hy' with hyx
          · exact (hy' rfl).elim
          · exact hW t List.mem_cons_self y ((monoVal_ne_zero_iff ht y).1 hy') hyx
      · exact hL' _ (List.getElem_mem hi')
  exact key {y | y ≠ x ∧ y ∈ p.freeVars} p [] hp
    (fun t ht y hy hx => ⟨hx, (mem_freeVars_raw p y).2 ⟨t, ht, hy⟩⟩) (by simp)

end Expand

/-! ## Homogenizing -/

section Homogenize
variable {α R : Type} [CommSemiring R] {S : SemiRingOps α} {v : α → R}

theorem Mono.checkInvariants_of_wf {m : Mono} (h : m.WF) : Mono.checkInvariants m = true := by
  simp only [Mono.checkInvariants, Bool.and_eq_true, List.all_eq_true, decide_eq_true_eq]
  refine ⟨⟨fun e he => (h.2 e he).ne', List.pairwise_map.2 (h.1.imp fun h => h.ne)⟩, ?_⟩
  exact (List.Pairwise.insertionSort_eq (h.1.imp fun h => h.le)).symm

theorem MPoly.checkInvariants_of {p : MPoly α} (h : ∀ t ∈ p, Mono.WF t.2) (hne : p ≠ []) (hs : p.Pairwise termLe) :
    p.checkInvariants = some true := by
  have h1 : (p.all fun t => Mono.checkInvariants t.2) = true := by
    rw [List.all_eq_true]; exact fun t ht => Mono.checkInvariants_of_wf (h t ht)
  rw [MPoly.checkInvariants, h1, if_neg (by simp), if_neg (by simpa using hne)]
  congr 1
  clear h h1 hne
  induction p with
  | nil => rfl
  | cons s p ih =>
    cases p with
    | nil => rfl
    | cons t p =>
      have hs' := List.pairwise_cons.1 hs
      simp only [List.tail_cons, List.zip_cons_cons, List.all_cons, Bool.and_eq_true, decide_eq_true_eq]
      exact ⟨hs'.1 t List.mem_cons_self, by simpa using ih hs'.2⟩

theorem MPoly.degree_some {p : MPoly α} (hne : p ≠ []) : ∃ d, p.degree = some d := by
  cases h : p.degree with
  | none => exact absurd ((MPoly.degree_none p).1 h) hne
  | some d => exact ⟨d, rfl⟩

/-- The terms of the homogenization. -/
def homTerms (p : MPoly α) (d x : ℕ) : MPoly α :=
  p.map fun t => (t.1, Mono.new (t.2 ++ [(x, d - Mono.degree t.2)]))

theorem homTerms_mono_wf {p : MPoly α} (hp : p.WF) {x : ℕ} (hx : x ∉ p.freeVars) (d : ℕ) :
    ∀ t ∈ homTerms p d x, Mono.WF t.2 := by
  intro t ht
  obtain ⟨s, hs, rfl⟩ := List.mem_map.1 ht
  apply Mono.new_wf
  rw [List.map_append, List.nodup_append]
  refine ⟨List.pairwise_map.2 ((hp.mono s hs).1.imp fun h => h.ne), by simp, ?_⟩
  intro a ha b hb hab
  simp only [List.map_cons, List.map_nil, List.mem_singleton] at hb
  subst hab
  subst hb
  exact hx ((mem_freeVars_raw p _).2 ⟨s, hs, ha⟩)

theorem homTerms_wf {p : MPoly α} (hp : p.WF) {x : ℕ} (hx : x ∉ p.freeVars) (d : ℕ) : MPoly.WF (homTerms p d x) := by
  refine ⟨homTerms_mono_wf hp hx d, ?_⟩
  have hn := hp.nodup
  rw [homTerms, List.map_map]
  rw [List.Nodup, List.pairwise_map] at hn ⊢
  refine hn.imp_of_mem fun {s t} hs ht h he => h ?_
  apply monoVal_inj (hp.mono s hs) (hp.mono t ht)
  have h1 := congrArg monoVal he
  simp only [Function.comp_apply, monoVal_new, monoVal_append] at h1
  have hzero : ∀ u ∈ p, monoVal u.2 x = 0 := by
    intro u hu
    apply monoVal_apply_eq_zero
    intro e he hex
    exact hx ((mem_freeVars_raw p _).2 ⟨u, hu, List.mem_map.2 ⟨e, he, hex⟩⟩)
  have hsing : ∀ k, monoVal [(x, k)] = Finsupp.single x k := fun k => by simp [monoVal]
  rw [hsing, hsing] at h1
  ext y
  by_cases hy : y = x
  · rw [hy, hzero s hs, hzero t ht]
  · have := DFunLike.congr_fun h1 y
    simpa [Finsupp.single_eq_of_ne hy] using this

theorem homTerms_homogeneous (v : α → R) {p : MPoly α} {d : ℕ} (hd : ∀ t ∈ p, Mono.degree t.2 ≤ d) (x : ℕ) :
    (mpVal v (homTerms p d x)).IsHomogeneous d := by
  induction p with
  | nil => simpa [homTerms, mpVal_nil] using isHomogeneous_zero ℕ R d
  | cons t p ih =>
    have ih := ih fun t ht => hd t (List.mem_cons_of_mem _ ht)
    have ht := hd t List.mem_cons_self
    rw [homTerms] at ih ⊢
    rw [List.map_cons, mpVal_cons]
    refine IsHomogeneous.add (isHomogeneous_monomial _ ?_) ih
    rw [monoVal_new, monoVal_append, map_add, ← Mono.degree_eq, ← Mono.degree_eq]
    simp only [Mono.degree, List.foldl_cons, List.foldl_nil]
    rw [Mono.degree] at ht
    omega

theorem monomial_setOne (s : ℕ →₀ ℕ) (c : R) (x k : ℕ) (hs : s x = 0) :
    aeval (fun i => if i = x then (1 : MvPolynomial ℕ R) else X i) (monomial (s + Finsupp.single x k) c) =
      monomial s c := by
  rw [aeval_monomial, Finsupp.prod_add_index' (by simp) (by intros; rw [pow_add]), Finsupp.prod_single_index (by simp)]
  simp only [if_true, one_pow, mul_one]
  rw [monomial_eq, algebraMap_eq]
  congr 1
  apply Finsupp.prod_congr
  intro i hi
  rw [if_neg]
  rintro rfl
  exact (Finsupp.mem_support_iff.1 hi) hs

theorem homTerms_setOne (v : α → R) {p : MPoly α} {x : ℕ} (hx : x ∉ p.freeVars) (d : ℕ) :
    aeval (fun i => if i = x then (1 : MvPolynomial ℕ R) else X i) (mpVal v (homTerms p d x)) = mpVal v p := by
  have hx' : ∀ t ∈ p, x ∉ t.2.map Prod.fst := fun t ht h => hx ((mem_freeVars_raw p x).2 ⟨t, ht, h⟩)
  clear hx
  induction p with
  | nil => simp [homTerms, mpVal_nil]
  | cons t p ih =>
    have ih := ih fun t ht => hx' t (List.mem_cons_of_mem _ ht)
    have h0 : monoVal t.2 x = 0 := monoVal_apply_eq_zero fun e he hex =>
      hx' t List.mem_cons_self (List.mem_map.2 ⟨e, he, hex⟩)
    rw [homTerms] at ih ⊢
    rw [List.map_cons, mpVal_cons, mpVal_cons, map_add, ih, monoVal_new, monoVal_append,
      show monoVal [(x, d - Mono.degree t.2)] = Finsupp.single x (d - Mono.degree t.2) by simp [monoVal],
      monomial_setOne _ _ _ _ h0]

theorem SemiRingOps.Models.mpHomogenize_eq (h : S.Models v) {p : MPoly α} (hp : p.WF) {x : ℕ} (hx : x ∉ p.freeVars)
    (hne : mpVal v p ≠ 0) :
    ∃ d, p.degree = some d ∧ S.mpHomogenize p x = some (MPoly.new (homTerms p d x)) := by
  have hp0 : p ≠ [] := by rintro rfl; exact hne (mpVal_nil v)
  obtain ⟨d, hd⟩ := MPoly.degree_some hp0
  refine ⟨d, hd, ?_⟩
  have h1 : ¬ S.mpEqual p [] = true := by
    rw [h.mpEqual_iff hp MPoly.nil_wf, mpVal_nil]; exact hne
  rw [SemiRingOps.mpHomogenize, if_neg h1, MPoly.homogenizeNonzero]
  have h2 : p.mapM (fun (t : α × Mono) => (Mono.homogenize t.2 d x).map fun m => (t.1, m)) = some (homTerms p d x) := by
    rw [homTerms]
    apply mapM_eq_map
    intro t ht
    rw [Mono.homogenize, if_pos (MPoly.degree_le_raw hd t ht)]; rfl
  have h3 : (MPoly.new (homTerms p d x)).checkInvariants = some true := by
    apply MPoly.checkInvariants_of
    · exact fun t ht => homTerms_mono_wf hp hx d t ((MPoly.new_perm _).mem_iff.1 ht)
    · intro h0
      have := (MPoly.new_perm (homTerms p d x)).length_eq
      rw [h0] at this
      simp [homTerms] at this
      exact hp0 (List.length_eq_zero_iff.1 this.symm)
    · exact List.pairwise_insertionSort _ _
  simp only [hd, h2, h3, assertThat, if_true, Option.bind_eq_bind, Option.bind_some]

end Homogenize

end Verif.Rings
