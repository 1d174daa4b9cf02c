import Verif.Proofs.MultiPolyDiv
import Verif.Proofs.Resultant

/-!
# Resultants of polynomials whose coefficients are polynomials in several variables

Coefficients may have zero terms here (`constant(0)` has one), so the division is looked at again.
-/

namespace Verif.Rings

open MvPolynomial

section Div
variable {α R : Type} [CommRing R] {S : DomainOps α} {v : α → R}

/-- What the division does when zero terms are allowed; nothing is said about a divisor that is zero. -/
def DivSpecW (v : α → R) (a b : MPoly α) (r : Option (Except DivErr (MPoly α))) : Prop :=
  mpVal v b ≠ 0 →
    (∃ q, r = some (.ok q) ∧ q.WF ∧ mpVal v a = mpVal v q * mpVal v b) ∨
    (¬ mpVal v b ∣ mpVal v a ∧ r = some (.error .notDivisible))

variable (h : S.Models v) (H : HashOrder)

include h in
theorem mpDivConst_specW {a b : MPoly α} (ha : a.WF) (hb : b.WF)
    (ha0 : ∀ x, x ∉ a.freeVars) (hb0 : ∀ x, x ∉ b.freeVars) : DivSpecW v a b (S.mpDivConst a b) := by
  haveI := h.domain
  intro hbne
  have hmono : ∀ p : MPoly α, (∀ x, x ∉ p.freeVars) → ∀ t ∈ p, t.2 = [] := by
    intro p hp t ht
    by_contra hne
    obtain ⟨e, he⟩ := List.exists_mem_of_ne_nil _ hne
    exact hp e.1 ((mem_freeVars_raw p _).2 ⟨t, ht, List.mem_map.2 ⟨e, he, rfl⟩⟩)
  have hone : ∀ p : MPoly α, p.WF → (∀ x, x ∉ p.freeVars) → p = [] ∨ ∃ c, p = [(c, [])] := by
    intro p hp hp0
    match p, hp, hp0 with
    | [], _, _ => exact .inl rfl
    | [t], _, h0 => exact .inr ⟨t.1, by rw [← hmono _ h0 t (by simp)]⟩
    | s :: t :: p, hp, h0 =>
      have h1 := hmono _ h0 s (by simp)
      have h2 := hmono _ h0 t (by simp)
      have := hp.nodup
      simp [h1, h2] at this
  have hC : ∀ c : α, mpVal v [(c, ([] : Mono))] = C (v c) := fun c => by
    rw [mpVal_single, monoVal_nil]; rfl
  rcases hone b hb hb0 with rfl | ⟨d, rfl⟩
  · exact absurd (mpVal_nil v) hbne
  · have hd : v d ≠ 0 := by
      intro h0; rw [hC, h0, C_0] at hbne; exact hbne rfl
    rcases hone a ha ha0 with rfl | ⟨c, rfl⟩
    · left
      exact ⟨[], rfl, MPoly.nil_wf, by rw [mpVal_nil, zero_mul]⟩
    · have hrun : S.mpDivConst [(c, [])] [(d, [])] = constDiv (S.div c d) := rfl
      rw [hrun]
      by_cases hdvd : v d ∣ v c
      · obtain ⟨q, hq, hqv⟩ := h.div_ok c d hd hdvd
        left
        exact ⟨MPoly.constant q, by rw [hq]; rfl, MPoly.single_wf Mono.one_wf, by rw [hC, hC, MPoly.constant, Mono.one, hC, hqv, C_mul]⟩
      · right
        refine ⟨?_, by rw [h.div_not c d hd hdvd]; rfl⟩
        rw [hC, hC]
        exact fun hh => hdvd ((C_dvd_iff_dvd_coeff _ _).1 hh 0 |>.trans (by simp))

include h in
/-- Division of well-formed polynomials that may have zero terms. -/
theorem mpDiv_specW {a b : MPoly α} (ha : a.WF) (hb : b.WF) : DivSpecW v a b (S.mpDiv H a b) := by
  haveI := h.domain
  intro hbne
  have hperm := H.perm (a.freeVars ++ b.freeVars).dedup
  rw [DomainOps.mpDiv, DomainOps.mpDivDepth]
  split
  · rename_i hv
    have hempty : (a.freeVars ++ b.freeVars).dedup = [] := by
      rw [hv] at hperm; exact List.nil_perm.1 hperm
    rw [List.dedup_eq_nil] at hempty
    obtain ⟨h1, h2⟩ := List.append_eq_nil_iff.1 hempty
    exact mpDivConst_specW h ha hb (by simp [h1]) (by simp [h2]) hbne
  · rename_i x rest hv
    have hx : x ∈ (a.freeVars ++ b.freeVars).dedup := by
      rw [← hperm.mem_iff, hv]; exact List.mem_cons_self
    rw [List.mem_dedup, List.mem_append] at hx
    set n := (a.freeVars ++ b.freeVars).dedup.length with hn
    set W : Set ℕ := {y | y ≠ x ∧ (y ∈ a.freeVars ∨ y ∈ b.freeVars)} with hW
    have hxW : x ∉ W := fun hh => hh.1 rfl
    have hd : ∀ c d : SubPoly v W, DivSpec v c.1 d.1 (S.mpDivDepth H n c.1 d.1) := by
      intro c d
      refine mpDivDepth_spec h H n c.2.1 d.2.1 c.2.2.1 d.2.2.1 ?_
      have hsub : (c.1.freeVars ++ d.1.freeVars).dedup ⊆ ((a.freeVars ++ b.freeVars).dedup).erase x := by
        intro y hy
        rw [List.mem_dedup, List.mem_append, mem_freeVars v c.2.1 c.2.2.1, mem_freeVars v d.2.1 d.2.2.1] at hy
        have hyW : y ∈ W := by
          rcases hy with hy | hy
          · exact mem_supported.1 c.2.2.2 hy
          · exact mem_supported.1 d.2.2.2 hy
        rw [(List.nodup_dedup _).mem_erase_iff, List.mem_dedup, List.mem_append]
        exact ⟨hyW.1, hyW.2⟩
      have hle := ((List.nodup_dedup (c.1.freeVars ++ d.1.freeVars)).subperm hsub).length_le
      rw [List.length_erase_of_mem (by rw [List.mem_dedup, List.mem_append]; exact hx)] at hle
      have hpos : 0 < (a.freeVars ++ b.freeVars).dedup.length :=
        List.length_pos_of_mem (by rw [List.mem_dedup, List.mem_append]; exact hx)
      omega
    obtain ⟨A, hA, hAv⟩ := expand_sub h ha x (W := W) fun y hy hyx => ⟨hyx, .inl hy⟩
    obtain ⟨B, hB, hBv⟩ := expand_sub h hb x (W := W) fun y hy hyx => ⟨hyx, .inr hy⟩
    have hhom := subOps_hom h H W (S.mpDivDepth H n)
    have hmod := subOps_models h H W (S.mpDivDepth H n) hd
    have hinj := plugIn_injective (R := R) hxW
    simp only
    rw [← hA, ← hB]
    have hb0 : mpVal v b = 0 ↔ polyVal (subVal v W) B = 0 := by
      rw [← hBv, map_eq_zero_iff _ hinj]
    rcases hmod.polyDiv_cases A B with ⟨h1, h2⟩ | ⟨h1, q, h2, h3⟩ | ⟨h1, h2, h3⟩
    · exact absurd (hb0.2 h1) hbne
    · left
      rw [hhom.polyDiv _ _ _ h2]
      obtain ⟨w1, w2, w3⟩ := mpPolyEvaluate_spec h H x (q.map Subtype.val) fun c hc => by
        obtain ⟨d, _, rfl⟩ := List.mem_map.1 hc
        exact d.2.1
      refine ⟨_, rfl, w1, ?_⟩
      rw [w3, ← plugIn_polyVal, ← hAv, ← hBv, ← map_mul, h3]
    · right
      refine ⟨?_, by rw [hhom.polyDiv _ _ _ h3]; rfl⟩
      rintro ⟨Q, hQ⟩
      apply h2
      have hQ' : mpVal v a = Q * mpVal v b := by rw [hQ, mul_comm]
      have hvars := vars_of_mul hQ' hbne
      obtain ⟨r, hr, hrr, _, rfl⟩ := h.toSemi.exists_mp Q
      obtain ⟨Rl, _, hRv⟩ := expand_sub h hr x (W := W) fun y hy hyx => ⟨hyx, .inl
        (vars_subset_freeVars v ha (hvars ((mem_freeVars v hr hrr y).1 hy)))⟩
      refine ⟨polyVal (subVal v W) Rl, hinj ?_⟩
      rw [map_mul, hAv, hBv, hRv, hQ]

/-! ## The structure of well-formed polynomials -/

/-- Well-formed polynomials, zero terms allowed. -/
abbrev WFPoly (α : Type) : Type := {p : MPoly α // p.WF}

open Classical in
/-- A quotient, as an element of `WFPoly`; a zero divisor is an error. -/
noncomputable def liftWF (v : α → R) (b : MPoly α) : Option (Except DivErr (MPoly α)) → Option (Except DivErr (WFPoly α))
  | some (.ok q) => if mpVal v b = 0 then some (.error .divideByZero) else if h : q.WF then some (.ok ⟨q, h⟩) else none
  | some (.error e) => if mpVal v b = 0 then some (.error .divideByZero) else some (.error e)
  | none => if mpVal v b = 0 then some (.error .divideByZero) else none

/-- The structure on `WFPoly`. -/
noncomputable def wfOps : DomainOps (WFPoly α) where
  equal a b := S.mpEqual a.1 b.1
  zero := ⟨[], MPoly.nil_wf⟩
  one := ⟨[(S.one, Mono.one)], MPoly.single_wf Mono.one_wf⟩
  add a b := ⟨S.mpAdd a.1 b.1, h.toSemi.mpAdd_wf a.2 b.2⟩
  mul a b := ⟨S.mpMul H a.1 b.1, h.toSemi.mpMul_wf H _ _⟩
  neg a := ⟨(S.toRingOps.multi H).neg a.1, S.toRingOps.mpNeg_wf H a.2⟩
  div a b := liftWF v b.1 (S.mpDiv H a.1 b.1)

theorem wfOps_hom : (wfOps h H).Hom (S.multi H) Subtype.val where
  equal _ _ := rfl
  zero := rfl
  one := rfl
  add _ _ := rfl
  mul _ _ := rfl
  neg _ := rfl
  div a b r hr hne := by
    change liftWF v b.1 (S.mpDiv H a.1 b.1) = some r at hr
    change S.mpDiv H a.1 b.1 = _
    rcases hd : S.mpDiv H a.1 b.1 with _ | ⟨e | q⟩
    · rw [hd, liftWF] at hr; split_ifs at hr; cases hr; exact absurd rfl hne
    · rw [hd, liftWF] at hr
      split_ifs at hr
      · cases hr; exact absurd rfl hne
      · cases hr; rfl
    · rw [hd, liftWF] at hr
      split_ifs at hr
      · cases hr; exact absurd rfl hne
      · cases hr; rfl

theorem wfOps_models : (wfOps h H).Models (fun p : WFPoly α => mpVal v p.1) := by
  haveI := h.domain
  refine ⟨⟨⟨?_, ?_, ?_, ?_, ?_, ?_⟩, ?_⟩, inferInstance, ?_, ?_, ?_⟩
  · intro a b; exact h.toSemi.mpEqual_iff a.2 b.2
  · exact mpVal_nil v
  · change mpVal v [(S.one, Mono.one)] = 1
    rw [mpVal_single, h.toSemi.one, monoVal_one]; rfl
  · intro a b; exact h.toSemi.mpAdd_val a.1 b.1
  · intro a b; exact h.toSemi.mpMul_val H a.1 b.1
  · intro r
    obtain ⟨a, h1, -, -, rfl⟩ := h.toSemi.exists_mp r
    exact ⟨⟨a, h1⟩, rfl⟩
  · intro a; exact h.toRing.mpNeg_val H a.1
  · intro a b hb
    change liftWF v b.1 (S.mpDiv H a.1 b.1) = _
    rcases S.mpDiv H a.1 b.1 with _ | ⟨e | q⟩ <;> rw [liftWF, if_pos hb]
  · rintro a b hb ⟨c, hc⟩
    change ∃ q, liftWF v b.1 (S.mpDiv H a.1 b.1) = _ ∧ _
    rcases mpDiv_specW h H a.2 b.2 hb with ⟨q, h1, h2, h3⟩ | ⟨h1, -⟩
    · exact ⟨⟨q, h2⟩, by rw [h1, liftWF, if_neg hb, dif_pos h2], h3⟩
    · exact absurd ⟨c, hc⟩ h1
  · intro a b hb hab
    change liftWF v b.1 (S.mpDiv H a.1 b.1) = _
    rcases mpDiv_specW h H a.2 b.2 hb with ⟨q, h1, h2, h3⟩ | ⟨h1, h2⟩
    · exact absurd ⟨mpVal v q, by rw [h3, mul_comm]⟩ hab
    · rw [h2, liftWF, if_neg hb]

theorem polyVal_wf (L : List (WFPoly α)) : polyVal (fun p : WFPoly α => mpVal v p.1) L = polyVal (mpVal v) (L.map Subtype.val) := by
  induction L with
  | nil => simp
  | cons a L ih => rw [polyVal_cons, ih, List.map_cons, polyVal_cons]

include h in
/-- The resultant of polynomials with well-formed coefficients. -/
theorem mpResultant_spec (P Q : List (MPoly α)) (hP : ∀ c ∈ P, c.WF) (hQ : ∀ c ∈ Q, c.WF)
    (hP0 : polyVal (mpVal v) P ≠ 0) (hQ0 : polyVal (mpVal v) Q ≠ 0) :
    ∃ s, (S.multi H).polyResultant P Q = some s ∧ s.WF ∧
      (mpVal v s = (polyVal (mpVal v) P).resultant (polyVal (mpVal v) Q) ∨ mpVal v s = (polyVal (mpVal v) Q).resultant (polyVal (mpVal v) P)) := by
  obtain ⟨A, rfl⟩ := exists_map_val (P := fun c : MPoly α => c.WF) P hP
  obtain ⟨B, rfl⟩ := exists_map_val (P := fun c : MPoly α => c.WF) Q hQ
  rw [← polyVal_wf] at hP0 hQ0
  obtain ⟨s, h1, h2⟩ := polyResultant_spec (wfOps_models h H) A B hP0 hQ0
  refine ⟨s.1, (wfOps_hom h H).polyResultant A B s h1, s.2, ?_⟩
  rw [← polyVal_wf, ← polyVal_wf, h2]
  split_ifs
  · right; rfl
  · left; rfl

end Div

end Verif.Rings
