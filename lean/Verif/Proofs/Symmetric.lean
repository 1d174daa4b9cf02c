import Verif.Proofs.SymmetricElem

/-!
# Writing a symmetric polynomial in the elementary symmetric polynomials
-/

namespace Verif.Rings

open MvPolynomial

section
variable {α R : Type} [CommRing R] {S : DomainOps α} {v : α → R}

/-- What the recursion keeps: `g` is a polynomial in the first variables of `e` that gives `P` when the elementary symmetric polynomials are
put for them; if `P` is homogeneous so is what `g` gives in any number of variables. -/
structure SymOk (v : α → R) (e vars : List ℕ) (P : MvPolynomial ℕ R) (g : MPoly α) : Prop where
  wf : g.WF
  reduced : g.Reduced v
  free : mpVal v g ∈ supported R {x | x ∈ e.take vars.length}
  val : aeval (esymSubst R e vars) (mpVal v g) = P
  hom : ∀ d, P.IsHomogeneous d → ∀ vars', (aeval (esymSubst R e vars') (mpVal v g)).IsHomogeneous d

theorem SymOk.freeVars {e vars : List ℕ} {P : MvPolynomial ℕ R} {g : MPoly α} (h : SymOk v e vars P g) :
    ∀ x ∈ g.freeVars, x ∈ e.take vars.length := by
  intro x hx
  exact mem_supported.1 h.free ((mem_freeVars v h.wf h.reduced x).1 hx)

theorem product_vars (h : S.Models v) (H : HashOrder) (vars : List ℕ) :
    MPoly.WF ((S.toSemiRingOps.multi H).product (vars.map fun x => S.mpVar x)) ∧
      mpVal v ((S.toSemiRingOps.multi H).product (vars.map fun x => S.mpVar x)) = (vars.map X).prod := by
  have := h.toRing.toSemi.mpVarsProduct H vars
  rw [SemiRingOps.mpVarsProduct] at this
  rw [SemiRingOps.product, List.foldl_map]
  exact this

theorem product_vars_reduced (h : S.Models v) (H : HashOrder) {vars : List ℕ} (hv : vars ≠ []) :
    MPoly.Reduced v ((S.toSemiRingOps.multi H).product (vars.map fun x => S.mpVar x)) := by
  obtain ⟨first, x, rfl⟩ : ∃ first x, vars = first ++ [x] := ⟨_, _, (List.dropLast_append_getLast hv).symm⟩
  rw [SemiRingOps.product, List.map_append, List.foldl_append]
  exact h.toRing.toSemi.mpMul_reduced H _ _

theorem degree_of_homogeneous {p : MPoly α} (hp : p.WF) (hr : p.Reduced v) {d : ℕ} (hd : (mpVal v p).IsHomogeneous d) :
    ∀ t ∈ p, Mono.degree t.2 = d := by
  intro t ht
  have h1 : coeff (monoVal t.2) (mpVal v p) ≠ 0 := by rw [coeff_mpVal_of_mem v hp ht]; exact hr t ht
  by_contra hn
  exact h1 (hd.coeff_eq_zero (by rwa [← Mono.degree_eq]))

theorem symHom_ok (h : S.Models v) (H : HashOrder) {impl : List ℕ → MPoly α → Option (MPoly α)} {first : List ℕ} {x : ℕ}
    (hn : (first ++ [x]).Nodup) {e : List ℕ} (he : e.Nodup) (hlen : (first ++ [x]).length ≤ e.length) {p : MPoly α} (hp : p.WF)
    (hr : p.Reduced v) (hsym : SymmetricIn (first ++ [x]) (mpVal v p)) {d : ℕ} (hd : (mpVal v p).IsHomogeneous d) (hp0 : mpVal v p ≠ 0)
    (h1 : ∀ q : MPoly α, q.WF → q.Reduced v → SymmetricIn first (mpVal v q) → (∀ t ∈ q, Mono.degree t.2 ≤ d) →
      ∃ g, impl first q = some g ∧ SymOk v e first (mpVal v q) g)
    (h2 : ∀ q : MPoly α, q.WF → q.Reduced v → SymmetricIn (first ++ [x]) (mpVal v q) → (∀ t ∈ q, Mono.degree t.2 < d ∨ d = 0) →
      ∃ g, impl (first ++ [x]) q = some g ∧ SymOk v e (first ++ [x]) (mpVal v q) g) :
    ∃ g, S.symHom H impl (first ++ [x]) p e = some g ∧ SymOk v e (first ++ [x]) (mpVal v p) g := by
  haveI := h.domain
  have hx : x ∉ first := by
    intro hx
    exact (List.nodup_append.1 hn).2.2 x hx x (by simp) rfl
  have hdeg := degree_of_homogeneous hp hr hd
  -- the part without the last variable
  have hwf0 : MPoly.WF (p.evaluateVarZero x) := MPoly.wf_sublist List.filter_sublist hp
  have hr0 : MPoly.Reduced v (p.evaluateVarZero x) := MPoly.reduced_filter v hr _
  have hv0 := mpVal_evaluateVarZero v hp.mono x
  obtain ⟨rSym, hrSym, ok1⟩ := h1 _ hwf0 hr0 (by rw [hv0]; exact hsym.setZero hx) fun t ht =>
    (hdeg t (List.filter_sublist.subset ht)).le
  have hd0 : (mpVal v (p.evaluateVarZero x)).IsHomogeneous d := by
    rw [hv0]
    intro s hs
    refine hd (d := s) ?_
    by_cases hsx : s x = 0
    · rwa [coeff_setZero x _ hsx] at hs
    · exfalso
      apply hs
      rw [← hv0]
      by_contra hc
      obtain ⟨t, ht, rfl⟩ := coeff_mpVal_ne v hc
      obtain ⟨ht1, ht2⟩ := List.mem_filter.1 ht
      rw [Mono.getVarPow_eq (hp.mono t ht1)] at ht2
      exact hsx (of_decide_eq_true ht2)
  -- its value in all variables
  have hlen1 : first.length ≤ e.length := by rw [List.length_append] at hlen; omega
  obtain ⟨l, r, hl, hrr, hrwf, hrred, hrval⟩ := h.toRing.toSemi.symEvaluate H he (first ++ [x]) hlen1 rSym ok1.freeVars
  have hrsym : SymmetricIn (first ++ [x]) (mpVal v r) := by rw [hrval]; exact esymSubst_symmetric hn e _
  have hrhom : (mpVal v r).IsHomogeneous d := by rw [hrval]; exact ok1.hom d hd0 _
  -- the difference
  have hqval : mpVal v ((S.toRingOps.multi H).add p ((S.toRingOps.multi H).neg r)) = mpVal v p - mpVal v r := by
    rw [sub_eq_add_neg, ← h.toRing.mpNeg_val H r]
    exact h.toRing.toSemi.mpAdd_val _ _
  have hqwf : MPoly.WF ((S.toRingOps.multi H).add p ((S.toRingOps.multi H).neg r)) :=
    h.toRing.toSemi.mpAdd_wf hp (S.toRingOps.mpNeg_wf H hrwf)
  have hqred : MPoly.Reduced v ((S.toRingOps.multi H).add p ((S.toRingOps.multi H).neg r)) := h.toRing.toSemi.mpAdd_reduced _ _
  have hqsym : SymmetricIn (first ++ [x]) (mpVal v p - mpVal v r) := hsym.sub hrsym
  have hqhom : (mpVal v p - mpVal v r).IsHomogeneous d := hd.sub hrhom
  have hq0 : aeval (fun i => if i = x then (0 : MvPolynomial ℕ R) else X i) (mpVal v p - mpVal v r) = 0 := by
    rw [map_sub, ← hv0, hrval, setZero_esymSubst hx, ok1.val, sub_self]
  have hdvd := hqsym.prod_dvd hn hq0
  -- the division
  obtain ⟨henwf, henval⟩ := product_vars h H (first ++ [x])
  have henred := product_vars_reduced h H (vars := first ++ [x]) (by simp)
  have henne : ((first ++ [x]).map X : List (MvPolynomial ℕ R)).prod ≠ 0 := by
    rw [prod_vars_eq, Ne, monomial_eq_zero]
    exact one_ne_zero
  obtain ⟨quo, hquo, hquowf, hquored, hquoval⟩ : ∃ quo, S.mpDiv H ((S.toRingOps.multi H).add p ((S.toRingOps.multi H).neg r))
      ((S.toSemiRingOps.multi H).product ((first ++ [x]).map fun x => S.mpVar x)) = some (.ok quo) ∧ quo.WF ∧ quo.Reduced v ∧
      mpVal v p - mpVal v r = mpVal v quo * ((first ++ [x]).map X).prod := by
    rcases mpDiv_spec h H hqwf henwf hqred henred with ⟨hz, _⟩ | ⟨_, q, hq1, hq2, hq3, hq4⟩ | ⟨_, hnd, _⟩
    · rw [henval] at hz; exact (henne hz).elim
    · exact ⟨q, hq1, hq2, hq3, by rw [← hqval, hq4, henval]⟩
    · rw [hqval, henval] at hnd; exact (hnd hdvd).elim
  -- the degree of the quotient
  have hquohom : ∀ k, d = (first ++ [x]).length + k → (mpVal v quo).IsHomogeneous k := by
    intro k hk
    rw [hk] at hqhom
    exact homogeneous_quotient hqhom hquoval
  have hquozero : d < (first ++ [x]).length → mpVal v quo = 0 := by
    intro hlt
    by_contra hne
    have h3 : mpVal v p - mpVal v r ≠ 0 := by rw [hquoval]; exact mul_ne_zero hne henne
    have h4 := hqhom.totalDegree h3
    rw [hquoval, totalDegree_mul_of_isDomain hne henne] at h4
    have h5 := (esymIn_homogeneous (R := R) (first ++ [x]).length (first ++ [x])).totalDegree (by rw [esymIn_length]; exact henne)
    rw [esymIn_length] at h5
    omega
  obtain ⟨qSym, hqSym, ok2⟩ := h2 quo hquowf hquored (hqsym.quotient hn hquoval) (by
    intro t ht
    by_cases hlt : d < (first ++ [x]).length
    · have := (mpVal_eq_zero_iff v hquowf hquored).1 (hquozero hlt)
      rw [this] at ht
      simp at ht
    · have hk : d = (first ++ [x]).length + (d - (first ++ [x]).length) := by omega
      have := degree_of_homogeneous hquowf hquored (hquohom _ hk) t ht
      rw [List.length_append, List.length_singleton] at this hlt
      left; omega)
  -- the result
  have hidx : (first ++ [x]).length - 1 < e.length := by rw [List.length_append, List.length_singleton] at *; omega
  have hres : S.symHom H impl (first ++ [x]) p e = some ((S.toRingOps.multi H).add rSym
      ((S.toRingOps.multi H).mul (S.mpVar e[(first ++ [x]).length - 1]) qSym)) := by
    have hlast : (first ++ [x]).getLast? = some x := by simp
    have hdrop : (first ++ [x]).dropLast = first := by simp
    simp only [DomainOps.symHom, hlast, hdrop, hrSym, hl, hrr, List.getElem?_eq_getElem hidx, hquo, unwrapDiv, hqSym,
      Option.bind_eq_bind, Option.bind_some]
  have hval : mpVal v ((S.toRingOps.multi H).add rSym ((S.toRingOps.multi H).mul (S.mpVar e[(first ++ [x]).length - 1]) qSym)) =
      mpVal v rSym + X e[(first ++ [x]).length - 1] * mpVal v qSym := by
    refine (h.toRing.toSemi.mpAdd_val _ _).trans ?_
    congr 1
    refine (h.toRing.toSemi.mpMul_val H _ _).trans ?_
    rw [h.toRing.toSemi.mpVar_val]
  have hsub : ∀ vars', esymSubst R e vars' e[(first ++ [x]).length - 1] = esymIn R (first ++ [x]).length vars' := by
    intro vars'
    rw [esymSubst, if_pos (List.getElem_mem hidx), he.idxOf_getElem]
    congr 1
    rw [List.length_append, List.length_singleton]
    rfl
  refine ⟨_, hres, h.toRing.toSemi.mpAdd_wf ok1.wf (h.toRing.toSemi.mpMul_wf H _ _), h.toRing.toSemi.mpAdd_reduced _ _, ?_, ?_, ?_⟩
  · rw [hval]
    refine add_mem (supported_mono ?_ ok1.free) (mul_mem (Algebra.subset_adjoin ⟨_, ?_, rfl⟩) ok2.free)
    · intro y hy
      rw [Set.mem_setOf_eq, List.mem_take_iff_getElem] at hy ⊢
      obtain ⟨i, hi, rfl⟩ := hy
      exact ⟨i, by rw [List.length_append, List.length_singleton]; omega, rfl⟩
    · rw [Set.mem_setOf_eq, List.mem_take_iff_getElem]
      exact ⟨(first ++ [x]).length - 1, by rw [List.length_append, List.length_singleton] at *; omega, rfl⟩
  · rw [hval, map_add, map_mul, aeval_X, ← hrval, ok2.val, hsub, esymIn_length, mul_comm, ← hquoval]
    ring
  · intro d' hd' vars'
    obtain rfl := hd.inj_right hd' hp0
    rw [hval, map_add, map_mul, aeval_X, hsub]
    refine (ok1.hom d hd0 vars').add ?_
    by_cases hlt : d < (first ++ [x]).length
    · have hz := hquozero hlt
      have hz' : aeval (esymSubst R e vars') (mpVal v qSym) = 0 := by
        by_contra hne
        have h3 := ok2.hom 0 (by rw [hz]; exact isHomogeneous_zero _ _ _) vars'
        have h4 := ok2.hom 1 (by rw [hz]; exact isHomogeneous_zero _ _ _) vars'
        exact absurd (h3.inj_right h4 hne) (by omega)
      rw [hz', mul_zero]
      exact isHomogeneous_zero _ _ _
    · have hk : d = (first ++ [x]).length + (d - (first ++ [x]).length) := by omega
      have h3 := (esymIn_homogeneous (R := R) (first ++ [x]).length vars').mul (ok2.hom _ (hquohom _ hk) vars')
      rwa [← hk] at h3

theorem foldlM_add (h : S.Models v) (H : HashOrder) {ι : Type} (F : ι → Option (MPoly α)) (A : ι → MPoly α → Prop) (l : List ι)
    (hF : ∀ i ∈ l, ∃ g, F i = some g ∧ g.WF ∧ A i g) (total : MPoly α) (ht : total.WF) (htr : total.Reduced v) :
    ∃ gs : List (MPoly α), ∃ g, List.Forall₂ A l gs ∧
      l.foldlM (fun total i => (F i).map ((S.toRingOps.multi H).add total)) total = some g ∧ g.WF ∧ g.Reduced v ∧
      mpVal v g = mpVal v total + (gs.map (mpVal v)).sum := by
  induction l generalizing total with
  | nil => exact ⟨[], total, .nil, rfl, ht, htr, by simp⟩
  | cons i l ih =>
    obtain ⟨g, h1, h2, h3⟩ := hF i List.mem_cons_self
    obtain ⟨gs, g', h4, h5, h6, h7, h8⟩ := ih (fun j hj => hF j (List.mem_cons_of_mem _ hj)) ((S.toRingOps.multi H).add total g)
      (h.toRing.toSemi.mpAdd_wf ht h2) (h.toRing.toSemi.mpAdd_reduced _ _)
    refine ⟨g :: gs, g', .cons h3 h4, ?_, h6, h7, ?_⟩
    · rw [List.foldlM_cons, h1]; exact h5
    · rw [h8, List.map_cons, List.sum_cons, ← add_assoc]
      congr 1
      exact h.toRing.toSemi.mpAdd_val _ _

theorem SymmetricIn.component {vars : List ℕ} {P : MvPolynomial ℕ R} (h : SymmetricIn vars P) (d : ℕ) :
    SymmetricIn vars (homogeneousComponent d P) := by
  constructor
  · intro x hx
    obtain ⟨s, hs, hxs⟩ := (mem_vars x).1 hx
    refine h.1 x ((mem_vars x).2 ⟨s, ?_, hxs⟩)
    rw [mem_support_iff, coeff_homogeneousComponent] at hs
    rw [mem_support_iff]
    split_ifs at hs
    · exact hs
    · exact (hs rfl).elim
  · intro σ hσ
    rw [rename_homogeneousComponent, h.2 σ hσ]

theorem forall₂_sum {ι : Type} {A : ι → MPoly α → Prop} {M : Type} [AddCommMonoid M] (f : ι → M) (g : MPoly α → M) {l : List ι}
    {gs : List (MPoly α)} (h : List.Forall₂ A l gs) (hA : ∀ i ∈ l, ∀ q, A i q → g q = f i) : (gs.map g).sum = (l.map f).sum := by
  induction h with
  | nil => rfl
  | cons h _ ih =>
    rw [List.map_cons, List.map_cons, List.sum_cons, List.sum_cons, hA _ List.mem_cons_self _ h,
      ih fun i hi => hA i (List.mem_cons_of_mem _ hi)]

theorem symImpl_ok (h : S.Models v) (H : HashOrder) {e : List ℕ} (he : e.Nodup) (depth : ℕ) : ∀ {vars : List ℕ}, vars.Nodup →
    vars.length ≤ e.length → ∀ {p : MPoly α}, p.WF → p.Reduced v → SymmetricIn vars (mpVal v p) →
    (∀ t ∈ p, vars.length + Mono.degree t.2 < depth) → 0 < depth →
    ∃ g, S.symImpl H depth vars p e = some g ∧ SymOk v e vars (mpVal v p) g := by
  induction depth with
  | zero => intro vars _ _ p _ _ _ _ h0; omega
  | succ depth ih =>
    intro vars hn hlen p hp hr hsym hdepth _
    haveI := h.domain
    have hsplit := splitByDegree_ok H p
    have hparts : ∀ part ∈ p.splitByDegree H, ∃ g, (if part.1 = 0 then some part.2
        else S.symHom H (fun vars p => S.symImpl H depth vars p e) vars part.2 e) = some g ∧ g.WF ∧
        SymOk v e vars (homogeneousComponent part.1 (mpVal v p)) g := by
      intro part hpart
      obtain ⟨h1, h2⟩ := hsplit.part part hpart
      have hwf : part.2.WF := by rw [h1]; exact MPoly.wf_sublist List.filter_sublist hp
      have hred : part.2.Reduced v := by rw [h1]; exact MPoly.reduced_filter v hr _
      have hval : mpVal v part.2 = homogeneousComponent part.1 (mpVal v p) := by rw [h1, mpVal_filter_degree]
      have hhom : (mpVal v part.2).IsHomogeneous part.1 := by rw [hval]; exact homogeneousComponent_isHomogeneous _ _
      have hne : mpVal v part.2 ≠ 0 := fun h0 => h2 ((mpVal_eq_zero_iff v hwf hred).1 h0)
      have hsymp : SymmetricIn vars (mpVal v part.2) := by rw [hval]; exact hsym.component _
      rw [← hval]
      split_ifs with hd
      · rw [hd] at hval hhom
        rw [homogeneousComponent_zero] at hval
        refine ⟨part.2, rfl, hwf, hwf, hred, ?_, ?_, ?_⟩
        · rw [hval, ← algebraMap_eq]; exact Subalgebra.algebraMap_mem _ _
        · rw [hval, aeval_C]; rfl
        · intro d hd' vars'
          obtain rfl := hhom.inj_right hd' hne
          rw [hval, aeval_C]
          exact isHomogeneous_C _ _
      · -- there is a variable
        have hvne : vars ≠ [] := by
          rintro rfl
          obtain ⟨t, ht⟩ := List.exists_mem_of_ne_nil _ h2
          have h3 := degree_of_homogeneous hwf hred hhom t ht
          have h4 : t.2 = [] := by
            by_contra hne
            obtain ⟨x, hx⟩ := List.exists_mem_of_ne_nil _ hne
            have := hsymp.1 x.1 ((mem_freeVars v hwf hred x.1).1 ((mem_freeVars_raw _ _).2 ⟨t, ht, List.mem_map.2 ⟨x, hx, rfl⟩⟩))
            simp at this
          rw [h4] at h3
          exact hd h3.symm
        obtain ⟨first, x, rfl⟩ : ∃ first x, vars = first ++ [x] := ⟨_, _, (List.dropLast_append_getLast hvne).symm⟩
        have hdp : (first ++ [x]).length + part.1 < depth + 1 := by
          obtain ⟨t, ht⟩ := List.exists_mem_of_ne_nil _ h2
          rw [← degree_of_homogeneous hwf hred hhom t ht]
          rw [h1] at ht
          exact hdepth t (List.filter_sublist.subset ht)
        rw [List.length_append, List.length_singleton] at hdp
        have hlen' := hlen
        rw [List.length_append, List.length_singleton] at hlen'
        obtain ⟨g, hg, ok⟩ := symHom_ok h H (impl := fun vars p => S.symImpl H depth vars p e) hn he hlen hwf hred hsymp hhom hne
          (fun q hq1 hq2 hq3 hq4 => ih (List.nodup_append.1 hn).1 (by omega) hq1 hq2 hq3
            (fun t ht => by have := hq4 t ht; omega) (by omega))
          (fun q hq1 hq2 hq3 hq4 => ih hn hlen hq1 hq2 hq3
            (fun t ht => by have := hq4 t ht; rw [List.length_append, List.length_singleton]; omega) (by omega))
        exact ⟨g, hg, ok.wf, ok⟩
    obtain ⟨gs, g, hall, hfold, hgwf, hgred, hgval⟩ := foldlM_add h H _ _ _ hparts (S.toRingOps.multi H).zero MPoly.nil_wf
      (fun t ht => by simp [RingOps.multi, SemiRingOps.multi] at ht)
    have hz : mpVal v (S.toRingOps.multi H).zero = 0 := mpVal_nil v
    rw [hz, zero_add] at hgval
    have hmem : ∀ q ∈ gs, ∃ part ∈ p.splitByDegree H, SymOk v e vars (homogeneousComponent part.1 (mpVal v p)) q := by
      intro q hq
      obtain ⟨i, hi, rfl⟩ := List.mem_iff_getElem.1 hq
      have hi' : i < (p.splitByDegree H).length := by rw [hall.length_eq]; exact hi
      exact ⟨_, List.getElem_mem hi', hall.get hi' hi⟩
    refine ⟨g, ?_, hgwf, hgred, ?_, ?_, ?_⟩
    · rw [DomainOps.symImpl, ← hfold]
      congr 1
      funext total part
      by_cases hd : part.1 = 0
      · rw [if_pos hd, if_pos hd]; rfl
      · rw [if_neg hd, if_neg hd]
    · rw [hgval]
      refine list_sum_mem fun P hP => ?_
      obtain ⟨q, hq, rfl⟩ := List.mem_map.1 hP
      obtain ⟨_, _, ok⟩ := hmem q hq
      exact ok.free
    · rw [hgval, map_list_sum, List.map_map, forall₂_sum (fun part => mpVal v part.2) _ hall, splitByDegree_sum]
      intro part hpart q ok
      rw [Function.comp, ok.val, (hsplit.part part hpart).1, mpVal_filter_degree]
    · intro d hd vars'
      rw [hgval, map_list_sum, List.map_map]
      have : ∀ P ∈ gs.map (⇑(aeval (esymSubst R e vars')) ∘ mpVal v), P ∈ homogeneousSubmodule ℕ R d := by
        intro P hP
        obtain ⟨q, hq, rfl⟩ := List.mem_map.1 hP
        obtain ⟨part, hpart, ok⟩ := hmem q hq
        rw [mem_homogeneousSubmodule]
        refine ok.hom d ?_ vars'
        by_cases hpd : part.1 = d
        · rw [hpd]; exact homogeneousComponent_isHomogeneous _ _
        · rw [homogeneousComponent_of_mem ((mem_homogeneousSubmodule _ _).2 hd), if_neg hpd]
          exact isHomogeneous_zero _ _ _
      exact (mem_homogeneousSubmodule _ _).1 (list_sum_mem this)

end

end Verif.Rings
