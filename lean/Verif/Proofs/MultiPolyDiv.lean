import Verif.Proofs.MultiPolyExpand
import Verif.Proofs.PolyTransfer
import Verif.Proofs.PolyDivision
import Mathlib.Algebra.MvPolynomial.NoZeroDivisors
import Mathlib.RingTheory.Algebraic.MvPolynomial

/-!
# Division of polynomials in several variables
-/

namespace Verif.Rings

open MvPolynomial

/-! ## Divisors do not bring in variables -/

section Vars
variable {R : Type} [CommRing R] [IsDomain R]

theorem vars_of_mul {a b q : MvPolynomial ℕ R} (h : a = q * b) (hb : b ≠ 0) : q.vars ⊆ a.vars := by
  by_cases hq : q = 0
  · simp [hq]
  · intro x hx
    have hqx : q.degreeOf x ≠ 0 := by
      rw [degreeOf_def]
      exact Multiset.count_ne_zero.2 (by simpa [vars_def] using hx)
    have : a.degreeOf x ≠ 0 := by
      rw [h, degreeOf_mul_eq hq hb]; omega
    rw [degreeOf_def] at this
    simpa [vars_def] using Multiset.count_ne_zero.1 this

end Vars

section Div
variable {α R : Type} [CommRing R] {S : DomainOps α} {v : α → R}

/-- What a correct division of `a` by `b` returns. -/
def DivSpec (v : α → R) (a b : MPoly α) (r : Option (Except DivErr (MPoly α))) : Prop :=
  (mpVal v b = 0 ∧ r = some (.error .divideByZero)) ∨
  (mpVal v b ≠ 0 ∧ ∃ q, r = some (.ok q) ∧ q.WF ∧ q.Reduced v ∧ mpVal v a = mpVal v q * mpVal v b) ∨
  (mpVal v b ≠ 0 ∧ ¬ mpVal v b ∣ mpVal v a ∧ r = some (.error .notDivisible))

/-- The well-formed polynomials in the variables `W`. -/
abbrev SubPoly (v : α → R) (W : Set ℕ) : Type :=
  {p : MPoly α // p.WF ∧ p.Reduced v ∧ mpVal v p ∈ supported R W}

/-- The polynomial an element denotes. -/
noncomputable def subVal (v : α → R) (W : Set ℕ) (p : SubPoly v W) : supported R W := ⟨mpVal v p.1, p.2.2.2⟩

open Classical in
/-- A quotient, as an element of `SubPoly`. -/
noncomputable def liftSub (v : α → R) (W : Set ℕ) :
    Option (Except DivErr (MPoly α)) → Option (Except DivErr (SubPoly v W))
  | some (.ok q) => if h : q.WF ∧ q.Reduced v ∧ mpVal v q ∈ supported R W then some (.ok ⟨q, h⟩) else none
  | some (.error e) => some (.error e)
  | none => none

variable (h : S.Models v) (H : HashOrder) (W : Set ℕ) (div : MPoly α → MPoly α → Option (Except DivErr (MPoly α)))

/-- The structure on `SubPoly`, with a given division. -/
noncomputable def subOps : DomainOps (SubPoly v W) where
  equal a b := S.mpEqual a.1 b.1
  zero := ⟨[], MPoly.nil_wf, fun t ht => by simp at ht, by rw [mpVal_nil]; exact Subalgebra.zero_mem _⟩
  one := ⟨[(S.one, Mono.one)], MPoly.single_wf Mono.one_wf, by
      haveI := h.domain
      intro t ht
      simp only [List.mem_singleton] at ht
      subst ht
      rw [h.toSemi.one]; exact one_ne_zero,
    by rw [mpVal_single, h.toSemi.one, monoVal_one]; exact Subalgebra.one_mem _⟩
  add a b := ⟨S.mpAdd a.1 b.1, h.toSemi.mpAdd_wf a.2.1 b.2.1, h.toSemi.mpAdd_reduced _ _, by
    rw [h.toSemi.mpAdd_val]; exact Subalgebra.add_mem _ a.2.2.2 b.2.2.2⟩
  mul a b := ⟨S.mpMul H a.1 b.1, h.toSemi.mpMul_wf H _ _, h.toSemi.mpMul_reduced H _ _, by
    rw [h.toSemi.mpMul_val]; exact Subalgebra.mul_mem _ a.2.2.2 b.2.2.2⟩
  neg a := ⟨(S.toRingOps.multi H).neg a.1, S.toRingOps.mpNeg_wf H a.2.1, h.toRing.mpNeg_reduced H a.2.2.1, by
    rw [h.toRing.mpNeg_val]; exact Subalgebra.neg_mem _ a.2.2.2⟩
  div a b := liftSub v W (div a.1 b.1)

theorem subOps_hom :
    (subOps h H W div).Hom ⟨S.toRingOps.multi H, div⟩ Subtype.val where
  equal _ _ := rfl
  zero := rfl
  one := rfl
  add _ _ := rfl
  mul _ _ := rfl
  neg _ := rfl
  div a b r hr _ := by
    change liftSub v W (div a.1 b.1) = some r at hr
    change div a.1 b.1 = _
    rcases hd : div a.1 b.1 with _ | ⟨e | q⟩
    · rw [hd] at hr; cases hr
    · rw [hd] at hr; cases hr; rfl
    · rw [hd, liftSub] at hr
      split_ifs at hr
      cases hr; rfl

theorem subOps_models (hd : ∀ a b : SubPoly v W, DivSpec v a.1 b.1 (div a.1 b.1)) :
    (subOps h H W div).Models (subVal v W) := by
  haveI := h.domain
  have hne : ∀ b : SubPoly v W, subVal v W b ≠ 0 → mpVal v b.1 ≠ 0 := fun b hb h0 => hb (Subtype.ext h0)
  have hdvd : ∀ a b : SubPoly v W, mpVal v b.1 ≠ 0 → mpVal v b.1 ∣ mpVal v a.1 → subVal v W b ∣ subVal v W a := by
    rintro a b hb ⟨q, hq⟩
    have hq' : mpVal v a.1 = q * mpVal v b.1 := by rw [hq, mul_comm]
    exact ⟨⟨q, mem_supported.2 fun x hx => mem_supported.1 a.2.2.2 (vars_of_mul hq' hb hx)⟩, Subtype.ext hq⟩
  refine ⟨⟨⟨?_, ?_, ?_, ?_, ?_, ?_⟩, ?_⟩, inferInstance, ?_, ?_, ?_⟩
  · intro a b
    exact (h.toSemi.mpEqual_iff a.2.1 b.2.1).trans ⟨fun h => Subtype.ext h, fun h => congrArg Subtype.val h⟩
  · exact Subtype.ext (mpVal_nil v)
  · apply Subtype.ext
    change mpVal v [(S.one, Mono.one)] = 1
    rw [mpVal_single, h.toSemi.one, monoVal_one]; rfl
  · intro a b
    exact Subtype.ext (h.toSemi.mpAdd_val a.1 b.1)
  · intro a b
    exact Subtype.ext (h.toSemi.mpMul_val H a.1 b.1)
  · rintro ⟨r, hr⟩
    obtain ⟨a, h1, h2, _, rfl⟩ := h.toSemi.exists_mp r
    exact ⟨⟨a, h1, h2, hr⟩, rfl⟩
  · intro a
    exact Subtype.ext (h.toRing.mpNeg_val H a.1)
  · intro a b hb
    have hb' : mpVal v b.1 = 0 := congrArg Subtype.val hb
    change liftSub v W (div a.1 b.1) = _
    rcases hd a b with ⟨_, h2⟩ | ⟨h1, _⟩ | ⟨h1, _⟩
    · rw [h2]; rfl
    · exact (h1 hb').elim
    · exact (h1 hb').elim
  · intro a b hb hab
    have hab' : mpVal v b.1 ∣ mpVal v a.1 := by
      obtain ⟨c, hc⟩ := hab
      exact ⟨c.1, congrArg Subtype.val hc⟩
    change ∃ q, liftSub v W (div a.1 b.1) = _ ∧ _
    rcases hd a b with ⟨h1, _⟩ | ⟨h1, q, h2, h3, h4, h5⟩ | ⟨_, h1, _⟩
    · exact (hne b hb h1).elim
    · have hq : q.WF ∧ q.Reduced v ∧ mpVal v q ∈ supported R W :=
        ⟨h3, h4, mem_supported.2 fun x hx => mem_supported.1 a.2.2.2 (vars_of_mul h5 h1 hx)⟩
      exact ⟨⟨q, hq⟩, by rw [h2, liftSub, dif_pos hq], Subtype.ext h5⟩
    · exact (h1 hab').elim
  · intro a b hb hab
    change liftSub v W (div a.1 b.1) = _
    rcases hd a b with ⟨h1, _⟩ | ⟨h1, q, h2, h3, h4, h5⟩ | ⟨_, h1, h2⟩
    · exact (hne b hb h1).elim
    · exact (hab (hdvd a b h1 ⟨mpVal v q, by rw [h5, mul_comm]⟩)).elim
    · rw [h2]; rfl

/-! ## One variable over the others -/

/-- Evaluating the polynomial variable at `x`. -/
noncomputable def plugIn (W : Set ℕ) (x : ℕ) : Polynomial (supported R W) →+* MvPolynomial ℕ R :=
  Polynomial.eval₂RingHom (supported R W).val.toRingHom (X x)

theorem plugIn_injective [IsDomain R] {W : Set ℕ} {x : ℕ} (hx : x ∉ W) : Function.Injective (plugIn (R := R) W x) := by
  have ht : Transcendental (supported R W) (X x : MvPolynomial ℕ R) := transcendental_supported_X R hx
  exact (transcendental_iff_injective.1 ht)

theorem plugIn_polyVal (W : Set ℕ) (x : ℕ) (L : List (SubPoly v W)) :
    plugIn W x (polyVal (subVal v W) L) = (polyVal (mpVal v) (L.map Subtype.val)).eval (X x) := by
  induction L with
  | nil => simp
  | cons a L ih =>
    rw [polyVal_cons, map_add, map_mul, ih, List.map_cons, polyVal_cons]
    simp [plugIn, subVal]

omit [CommRing R] in
theorem exists_map_val {β : Type} {P : β → Prop} (L : List β) (h : ∀ c ∈ L, P c) :
    ∃ M : List {b // P b}, M.map Subtype.val = L :=
  ⟨L.attach.map fun c => ⟨c.1, h c.1 c.2⟩, by simp [List.map_map, Function.comp_def]⟩

include h in
/-- The expansion of a polynomial, with coefficients in the other variables. -/
theorem expand_sub {p : MPoly α} (hp : p.WF) (x : ℕ) {W : Set ℕ} (hW : ∀ y ∈ p.freeVars, y ≠ x → y ∈ W) :
    ∃ L : List (SubPoly v W), L.map Subtype.val = S.mpExpand p x ∧ plugIn W x (polyVal (subVal v W) L) = mpVal v p := by
  obtain ⟨L, hL⟩ := exists_map_val (P := fun c : MPoly α => c.WF ∧ c.Reduced v ∧ mpVal v c ∈ supported R W)
    (S.mpExpand p x) fun c hc => by
      obtain ⟨h1, h2, h3⟩ := h.toSemi.mpExpand_coeffs x hp.mono c hc
      exact ⟨h1, h2, supported_mono (fun y hy => hW y hy.2 hy.1) h3⟩
  exact ⟨L, hL, by rw [plugIn_polyVal, hL, h.toSemi.mpExpand_val x hp.mono]⟩

theorem SemiRingOps.polyEvaluate_append {β : Type} (T : SemiRingOps β) (c : β) (L : List β) (x : β) :
    T.polyEvaluate (c :: L) x = T.add (T.mul (T.polyEvaluate L x) x) c := by
  simp [SemiRingOps.polyEvaluate, List.foldl_append]

include h in
theorem mpPolyEvaluate_spec (x : ℕ) (L : List (MPoly α)) (hL : ∀ c ∈ L, c.WF) :
    let r := (S.toSemiRingOps.multi H).polyEvaluate L (S.mpVar x)
    r.WF ∧ r.Reduced v ∧ mpVal v r = (polyVal (mpVal v) L).eval (X x) := by
  induction L with
  | nil => exact ⟨MPoly.nil_wf, fun t ht => by simp [SemiRingOps.polyEvaluate, SemiRingOps.multi] at ht, by
      simp [SemiRingOps.polyEvaluate, SemiRingOps.multi, mpVal_nil]⟩
  | cons c L ih =>
    obtain ⟨h1, h2, h3⟩ := ih fun c hc => hL c (List.mem_cons_of_mem _ hc)
    simp only at h1 h2 h3 ⊢
    rw [SemiRingOps.polyEvaluate_append]
    have hx : mpVal v (S.mpVar x) = X x := by
      rw [SemiRingOps.mpVar, SemiRingOps.mpVarPow, mpVal_single, monoVal_new, h.toSemi.one]
      simp [monoVal, X]
    refine ⟨h.toSemi.mpAdd_wf (h.toSemi.mpMul_wf H _ _) (hL c List.mem_cons_self), h.toSemi.mpAdd_reduced _ _, ?_⟩
    change mpVal v (S.mpAdd (S.mpMul H _ _) c) = _
    rw [h.toSemi.mpAdd_val, h.toSemi.mpMul_val, h3, hx, polyVal_cons]
    simp only [Polynomial.eval_add, Polynomial.eval_C, Polynomial.eval_mul, Polynomial.eval_X]
    ring

/-! ## The division -/

include h in
theorem mpDivConst_spec {a b : MPoly α} (ha : a.WF) (hb : b.WF) (har : a.Reduced v) (hbr : b.Reduced v)
    (ha0 : ∀ x, x ∉ a.freeVars) (hb0 : ∀ x, x ∉ b.freeVars) : DivSpec v a b (S.mpDivConst a b) := by
  haveI := h.domain
  have hmono : ∀ p : MPoly α, (∀ x, x ∉ p.freeVars) → ∀ t ∈ p, t.2 = [] := by
    intro p hp t ht
    by_contra hne
    obtain ⟨e, he⟩ := List.exists_mem_of_ne_nil _ hne
    exact hp e.1 ((mem_freeVars_raw p _).2 ⟨t, ht, List.mem_map.2 ⟨e, he, rfl⟩⟩)
  have hone : ∀ p : MPoly α, p.WF → (∀ x, x ∉ p.freeVars) → p = [] ∨ ∃ c, p = [(c, [])] := by
    intro p hp hp0
    match p, hp, hp0 with
    | [], _, _ => exact .inl rfl
    | [t], _, h0 => exact .inr ⟨t.1, by rw [← hmono _ h0 t (by simp)]⟩
    | s :: t :: p, hp, h0 =>
      have h1 := hmono _ h0 s (by simp)
      have h2 := hmono _ h0 t (by simp)
      have := hp.nodup
      simp [h1, h2] at this
  have hC : ∀ c : α, mpVal v [(c, ([] : Mono))] = C (v c) := fun c => by
    rw [mpVal_single, monoVal_nil]; rfl
  rcases hone b hb hb0 with rfl | ⟨d, rfl⟩
  · left
    refine ⟨mpVal_nil v, ?_⟩
    rcases hone a ha ha0 with rfl | ⟨c, rfl⟩ <;> rfl
  · have hd : v d ≠ 0 := hbr _ (List.mem_singleton.2 rfl)
    have hd' : mpVal v [(d, ([] : Mono))] ≠ 0 := by rw [hC]; exact fun h0 => hd (C_eq_zero.1 h0)
    rcases hone a ha ha0 with rfl | ⟨c, rfl⟩
    · right; left
      exact ⟨hd', [], rfl, MPoly.nil_wf, fun t ht => by simp at ht, by rw [mpVal_nil, zero_mul]⟩
    · have hc : v c ≠ 0 := har _ (List.mem_singleton.2 rfl)
      have hrun : S.mpDivConst [(c, [])] [(d, [])] = constDiv (S.div c d) := rfl
      rw [hrun]
      by_cases hdvd : v d ∣ v c
      · obtain ⟨q, hq, hqv⟩ := h.div_ok c d hd hdvd
        right; left
        refine ⟨hd', MPoly.constant q, by rw [hq]; rfl, MPoly.single_wf Mono.one_wf, ?_, ?_⟩
        · intro t ht
          rw [MPoly.constant, List.mem_singleton] at ht
          subst ht
          intro h0
          simp only at h0
          rw [h0, zero_mul] at hqv
          exact hc hqv
        · rw [hC, hC, MPoly.constant, Mono.one, hC, hqv, C_mul]
      · right; right
        refine ⟨hd', ?_, by rw [h.div_not c d hd hdvd]; rfl⟩
        rw [hC, hC]
        exact fun hh => hdvd ((C_dvd_iff_dvd_coeff _ _).1 hh 0 |>.trans (by simp))

include h in
/-- Division of well-formed polynomials, with enough depth of recursion. -/
theorem mpDivDepth_spec (n : ℕ) : ∀ {a b : MPoly α}, a.WF → b.WF → a.Reduced v → b.Reduced v →
    (a.freeVars ++ b.freeVars).dedup.length < n → DivSpec v a b (S.mpDivDepth H n a b) := by
  haveI := h.domain
  induction n with
  | zero => intro a b _ _ _ _ hn; omega
  | succ n ih =>
    intro a b ha hb har hbr hn
    have hperm := H.perm (a.freeVars ++ b.freeVars).dedup
    rw [DomainOps.mpDivDepth]
    split
    · rename_i hv
      have hempty : (a.freeVars ++ b.freeVars).dedup = [] := by
        rw [hv] at hperm; exact List.nil_perm.1 hperm
      rw [List.dedup_eq_nil] at hempty
      obtain ⟨h1, h2⟩ := List.append_eq_nil_iff.1 hempty
      exact mpDivConst_spec h ha hb har hbr (by simp [h1]) (by simp [h2])
    · rename_i x rest hv
      have hx : x ∈ (a.freeVars ++ b.freeVars).dedup := by
        rw [← hperm.mem_iff, hv]; exact List.mem_cons_self
      rw [List.mem_dedup, List.mem_append] at hx
      set W : Set ℕ := {y | y ≠ x ∧ (y ∈ a.freeVars ∨ y ∈ b.freeVars)} with hW
      have hxW : x ∉ W := fun hh => hh.1 rfl
      -- the division of the coefficients
      have hd : ∀ c d : SubPoly v W, DivSpec v c.1 d.1 (S.mpDivDepth H n c.1 d.1) := by
        intro c d
        refine ih c.2.1 d.2.1 c.2.2.1 d.2.2.1 ?_
        have hsub : (c.1.freeVars ++ d.1.freeVars).dedup ⊆ ((a.freeVars ++ b.freeVars).dedup).erase x := by
          intro y hy
          rw [List.mem_dedup, List.mem_append, mem_freeVars v c.2.1 c.2.2.1, mem_freeVars v d.2.1 d.2.2.1] at hy
          have hyW : y ∈ W := by
            rcases hy with hy | hy
            · exact mem_supported.1 c.2.2.2 hy
            · exact mem_supported.1 d.2.2.2 hy
          rw [(List.nodup_dedup _).mem_erase_iff, List.mem_dedup, List.mem_append]
          exact ⟨hyW.1, hyW.2⟩
        have hle := ((List.nodup_dedup (c.1.freeVars ++ d.1.freeVars)).subperm hsub).length_le
        rw [List.length_erase_of_mem (by rw [List.mem_dedup, List.mem_append]; exact hx)] at hle
        have hpos : 0 < (a.freeVars ++ b.freeVars).dedup.length :=
          List.length_pos_of_mem (by rw [List.mem_dedup, List.mem_append]; exact hx)
        omega
      obtain ⟨A, hA, hAv⟩ := expand_sub h ha x (W := W) fun y hy hyx => ⟨hyx, .inl hy⟩
      obtain ⟨B, hB, hBv⟩ := expand_sub h hb x (W := W) fun y hy hyx => ⟨hyx, .inr hy⟩
      have hhom := subOps_hom h H W (S.mpDivDepth H n)
      have hmod := subOps_models h H W (S.mpDivDepth H n) hd
      have hinj := plugIn_injective (R := R) hxW
      simp only
      rw [← hA, ← hB]
      have hb0 : mpVal v b = 0 ↔ polyVal (subVal v W) B = 0 := by
        rw [← hBv, map_eq_zero_iff _ hinj]
      rcases hmod.polyDiv_cases A B with ⟨h1, h2⟩ | ⟨h1, q, h2, h3⟩ | ⟨h1, h2, h3⟩
      · left
        exact ⟨hb0.2 h1, by rw [hhom.polyDiv _ _ _ h2]; rfl⟩
      · right; left
        rw [hhom.polyDiv _ _ _ h2]
        obtain ⟨w1, w2, w3⟩ := mpPolyEvaluate_spec h H x (q.map Subtype.val) fun c hc => by
          obtain ⟨d, _, rfl⟩ := List.mem_map.1 hc
          exact d.2.1
        refine ⟨fun h0 => h1 (hb0.1 h0), _, rfl, w1, w2, ?_⟩
        rw [w3, ← plugIn_polyVal, ← hAv, ← hBv, ← map_mul, h3]
      · right; right
        refine ⟨fun h0 => h1 (hb0.1 h0), ?_, by rw [hhom.polyDiv _ _ _ h3]; rfl⟩
        rintro ⟨Q, hQ⟩
        apply h2
        have hQ' : mpVal v a = Q * mpVal v b := by rw [hQ, mul_comm]
        have hvars := vars_of_mul hQ' fun h0 => h1 (hb0.1 h0)
        obtain ⟨r, hr, hrr, _, rfl⟩ := h.toSemi.exists_mp Q
        obtain ⟨Rl, _, hRv⟩ := expand_sub h hr x (W := W) fun y hy hyx => ⟨hyx, .inl
          ((mem_freeVars v ha har y).2 (hvars ((mem_freeVars v hr hrr y).1 hy)))⟩
        refine ⟨polyVal (subVal v W) Rl, hinj ?_⟩
        rw [map_mul, hAv, hBv, hRv, hQ]

include h in
theorem mpDiv_spec {a b : MPoly α} (ha : a.WF) (hb : b.WF) (har : a.Reduced v) (hbr : b.Reduced v) :
    DivSpec v a b (S.mpDiv H a b) :=
  mpDivDepth_spec h H _ ha hb har hbr (Nat.lt_succ_self _)

end Div

end Verif.Rings
