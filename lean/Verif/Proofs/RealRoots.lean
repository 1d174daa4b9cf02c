import Verif.Proofs.RealSqfree
import Mathlib.Analysis.Polynomial.CauchyBound

/-!
# `real_roots_squarefree`, with and without ends
-/

namespace Verif.RealRoots

open Polynomial Verif.Rings

theorem le_foldl_max (l : List Nat) (m x : Nat) (h : x ∈ l ∨ x ≤ m) : x ≤ l.foldl max m := by
  induction l generalizing m with
  | nil => simpa using h
  | cons y l ih =>
    rw [List.foldl_cons]
    apply ih
    rcases h with h | h
    · rcases List.mem_cons.1 h with rfl | h
      · right; exact le_max_right _ _
      · exact Or.inl h
    · right; exact h.trans (le_max_left _ _)

theorem intCoeff (p : List Int) (i : Nat) : intGcd.polyCoeff p i = (ipoly p).coeff i := intGcd_models.toSemi.polyCoeff p i

theorem rv_coeff' (p : List Int) (i : Nat) : (rv p).coeff i = (((ipoly p).coeff i : Int) : ℝ) := by
  rw [rv_eq, coeff_map, Int.coe_castRingHom]

theorem cauchyBound_ge (p : List Int) (d : Nat) : 2 ≤ cauchyBound p d := by
  unfold cauchyBound
  have : (0 : ℚ) ≤ ((((List.range d).map fun i => (intGcd.polyCoeff p i).natAbs).foldl max 0 : Nat) : ℚ) / ((intGcd.polyCoeff p d).natAbs : ℚ) := by positivity
  linarith

/-- Every real root is strictly inside the computed bound. -/
theorem root_lt_cauchyBound {p : List Int} (h0 : rv p ≠ 0) {x : ℝ} (hx : (rv p).eval x = 0) :
    |x| < (cauchyBound p (ipoly p).natDegree : ℚ) := by
  have h1 := IsRoot.norm_lt_cauchyBound h0 hx
  have h2 : ((Polynomial.cauchyBound (rv p) : NNReal) : ℝ) ≤ (cauchyBound p (ipoly p).natDegree : ℚ) := by
    have hl : ((‖(rv p).leadingCoeff‖₊ : NNReal) : ℝ) = ((intGcd.polyCoeff p (ipoly p).natDegree).natAbs : ℝ) := by
      rw [coe_nnnorm, leadingCoeff, rv_natDegree, rv_coeff', intCoeff, Real.norm_eq_abs, Nat.cast_natAbs, Int.cast_abs]
    have hs : (((Finset.range (rv p).natDegree).sup (fun i => ‖(rv p).coeff i‖₊) : NNReal) : ℝ) ≤
        ((((List.range (ipoly p).natDegree).map fun i => (intGcd.polyCoeff p i).natAbs).foldl max 0 : Nat) : ℝ) := by
      have : (Finset.range (rv p).natDegree).sup (fun i => ‖(rv p).coeff i‖₊) ≤
          ((((List.range (ipoly p).natDegree).map fun i => (intGcd.polyCoeff p i).natAbs).foldl max 0 : Nat) : NNReal) := by
        apply Finset.sup_le
        intro i hi
        rw [Finset.mem_range, rv_natDegree] at hi
        rw [← NNReal.coe_le_coe, coe_nnnorm, NNReal.coe_natCast, rv_coeff', Real.norm_eq_abs, ← Int.cast_abs, ← Nat.cast_natAbs]
        have := le_foldl_max ((List.range (ipoly p).natDegree).map fun i => (intGcd.polyCoeff p i).natAbs) 0 ((ipoly p).coeff i).natAbs
          (Or.inl (List.mem_map.2 ⟨i, List.mem_range.2 hi, by rw [intCoeff]⟩))
        exact_mod_cast this
      exact_mod_cast this
    unfold Polynomial.cauchyBound cauchyBound
    have h3 : (0 : ℝ) ≤ ((intGcd.polyCoeff p (ipoly p).natDegree).natAbs : ℝ) := by positivity
    have := div_le_div_of_nonneg_right hs h3
    rw [← hl] at this
    rw [Rat.cast_add, Rat.cast_div, Rat.cast_natCast, Rat.cast_natCast, ← hl, NNReal.coe_add, NNReal.coe_div, NNReal.coe_one]
    push_cast at this ⊢
    linarith
  have h3 : |x| < ((Polynomial.cauchyBound (rv p) : NNReal) : ℝ) := by
    rw [← Real.norm_eq_abs, ← coe_nnnorm]; exact_mod_cast h1
  linarith

/-- The ranges on which `real_roots_squarefree` does not fail. -/
def RangeOk (p : List Int) : Option ℚ → Option ℚ → Prop
  | some a, some b => a < b
  | some a, none => 2 ≤ (rv p).natDegree → a < cauchyBound p (rv p).natDegree
  | none, some b => 2 ≤ (rv p).natDegree → -cauchyBound p (rv p).natDegree < b
  | none, none => True

theorem rangeChecks_ok {p : List Int} (h0 : rv p ≠ 0) (hsq : Squarefree (rv p)) {oa ob : Option ℚ}
    (h : ∀ a b, oa = some a → ob = some b → a < b) : rangeChecks p oa ob = some () := by
  have hz : intGcd.toSemiRingOps.poly.isZero p = false := by
    rw [← Bool.not_eq_true]
    exact fun e => (rv_ne_zero.1 h0) ((intGcd_models.toSemi.poly.isZero p).1 e)
  unfold rangeChecks
  rw [sqfreeCheck_ok h0 hsq, hz]
  cases oa with
  | none => simp [assertThat]
  | some a =>
    cases ob with
    | none => simp [assertThat]
    | some b => simp [assertThat, h a b rfl rfl]

theorem uniqueLinearRoot_spec {p : List Int} (hd : (ipoly p).natDegree = 1) :
    ∃ r : ℚ, uniqueLinearRoot p = some r ∧ ∀ x : ℝ, (rv p).eval x = 0 ↔ x = r := by
  have h0 : ipoly p ≠ 0 := by intro e; rw [e] at hd; simp at hd
  have hc : (ipoly p).coeff 1 ≠ 0 := by
    rw [← hd]; exact leadingCoeff_ne_zero.2 h0
  refine ⟨_, by
    unfold uniqueLinearRoot
    rw [intGcd_models.toSemi.polyDegree_some p h0, hd]
    simp only [Option.bind_eq_bind, Option.bind_some, assertThat, beq_self_eq_true, if_true]
    rfl, fun x => ?_⟩
  have hc' : (((ipoly p).coeff 1 : Int) : ℝ) ≠ 0 := by exact_mod_cast hc
  have e : rv p = C (((ipoly p).coeff 1 : Int) : ℝ) * X + C (((ipoly p).coeff 0 : Int) : ℝ) := by
    have := eq_X_add_C_of_natDegree_le_one (p := rv p) (by rw [rv_natDegree, hd])
    rw [rv_coeff', rv_coeff'] at this
    exact this
  rw [e]
  simp only [eval_add, eval_mul, eval_C, eval_X]
  rw [intCoeff, intCoeff]
  push_cast
  constructor
  · intro h
    field_simp
    first | done | linarith
  · intro h
    rw [h]
    field_simp
    ring

theorem linearInRange_iff (root : ℚ) (oa ob : Option ℚ) (ia ib : Bool) :
    linearInRange root oa ob ia ib = true ↔ InRange oa ob ia ib (root : ℝ) := by
  unfold linearInRange InRange
  rw [Bool.and_eq_true]
  apply and_congr
  · cases oa with
    | none => simp
    | some a =>
      simp only [Option.some.injEq, forall_eq']
      rcases lt_trichotomy a root with h | h | h
      · have : (a : ℝ) < root := by exact_mod_cast h
        simp [h, this]
      · subst h; simp
      · have h1 : ¬ a < root := not_lt.2 h.le
        have h2 : ¬ (a : ℝ) < root := by exact_mod_cast h1
        have h3 : ¬ root = a := h.ne
        simp [h1, h.ne', h3, h2]
  · cases ob with
    | none => simp
    | some b =>
      simp only [Option.some.injEq, forall_eq']
      rcases lt_trichotomy root b with h | h | h
      · have : (root : ℝ) < b := by exact_mod_cast h
        simp [h, this]
      · subst h; simp
      · have h1 : ¬ root < b := not_lt.2 h.le
        have h2 : ¬ (root : ℝ) < b := by exact_mod_cast h1
        have h3 : ¬ root = b := h.ne'
        simp [h1, h.ne, h3, h2]

/-- The whole of `real_roots_squarefree`. -/
theorem rootsSquarefree_spec {p : List Int} (h0 : rv p ≠ 0) (hsq : Squarefree (rv p)) {oa ob : Option ℚ} (ia ib : Bool) (hr : RangeOk p oa ob) :
    ∃ R rs, rootsSquarefree p oa ob ia ib = some R ∧ R.poly = p ∧ R.Isolates rs ∧
      ∀ x, x ∈ rs ↔ InRange oa ob ia ib x ∧ (rv p).eval x = 0 := by
  have hi := rv_ne_zero.1 h0
  have hdeg := intGcd_models.toSemi.polyDegree_some p hi
  have hchk : rangeChecks p oa ob = some () := rangeChecks_ok h0 hsq (by rintro a b rfl rfl; exact hr)
  unfold rootsSquarefree
  simp only [hchk, hdeg, Option.bind_eq_bind, Option.bind_some]
  by_cases hd0 : (ipoly p).natDegree = 0
  · rw [if_pos hd0]
    refine ⟨_, [], rfl, rfl, ⟨.nil, .nil, .nil⟩, fun x => ?_⟩
    simp only [List.not_mem_nil, false_iff, not_and]
    intro _ hx
    have e : rv p = C ((rv p).coeff 0) := eq_C_of_natDegree_eq_zero (by rw [rv_natDegree, hd0])
    rw [e, eval_C] at hx
    rw [hx, C_0] at e
    exact h0 e
  rw [if_neg hd0]
  by_cases hd1 : (ipoly p).natDegree = 1
  · rw [if_pos hd1]
    obtain ⟨r, r1, r2⟩ := uniqueLinearRoot_spec hd1
    rw [r1]
    simp only [Option.bind_some]
    by_cases hin : linearInRange r oa ob ia ib = true
    · rw [if_pos hin]
      rw [linearInRange_iff] at hin
      refine ⟨_, [(r : ℝ)], rfl, rfl, ⟨by simp, .cons ⟨rfl, (r2 r).2 rfl⟩ .nil, by simp⟩, fun x => ?_⟩
      rw [List.mem_singleton, r2]
      exact ⟨fun e => ⟨by rw [e]; exact hin, e⟩, fun e => e.2⟩
    · rw [if_neg hin]
      rw [linearInRange_iff] at hin
      refine ⟨_, [], rfl, rfl, ⟨.nil, .nil, .nil⟩, fun x => ?_⟩
      simp only [List.not_mem_nil, false_iff, not_and]
      intro h1 h2
      rw [(r2 x).1 h2] at h1
      exact hin h1
  rw [if_neg hd1]
  have hd2 : 2 ≤ (rv p).natDegree := by rw [rv_natDegree]; omega
  have hm := cauchyBound_ge p (ipoly p).natDegree
  have hroot : ∀ x : ℝ, (rv p).eval x = 0 → ((-cauchyBound p (ipoly p).natDegree : ℚ) : ℝ) < x ∧ x < (cauchyBound p (ipoly p).natDegree : ℚ) := by
    intro x hx
    have := abs_lt.1 (root_lt_cauchyBound h0 hx)
    push_cast
    exact this
  have hm0 : decide (cauchyBound p (ipoly p).natDegree > 0) = true := by simp; linarith
  cases oa with
  | none =>
    cases ob with
    | none =>
      have hlt : -cauchyBound p (ipoly p).natDegree < cauchyBound p (ipoly p).natDegree := by linarith
      have hc := rangeChecks_ok h0 hsq (oa := some (-cauchyBound p (ipoly p).natDegree)) (ob := some (cauchyBound p (ipoly p).natDegree))
        (by rintro a b h1 h2; cases h1; cases h2; exact hlt)
      simp only [assertThat, hm0, if_true, Option.bind_some, hc]
      obtain ⟨R, rs, e1, e2, e3, e4⟩ := rootsBetween_spec h0 hsq hlt ia ib
      refine ⟨R, rs, e1, e2, e3, fun x => ?_⟩
      rw [e4]
      constructor
      · rintro ⟨-, h⟩; exact ⟨⟨by simp, by simp⟩, h⟩
      · rintro ⟨-, h⟩
        refine ⟨⟨fun a ha => ?_, fun b hb => ?_⟩, h⟩
        · cases ha; exact Or.inl (hroot x h).1
        · cases hb; exact Or.inl (hroot x h).2
    | some b =>
      have hlt : -cauchyBound p (ipoly p).natDegree < b := by have := hr hd2; rwa [rv_natDegree] at this
      have hc := rangeChecks_ok h0 hsq (oa := some (-cauchyBound p (ipoly p).natDegree)) (ob := some b)
        (by rintro a b h1 h2; cases h1; cases h2; exact hlt)
      simp only [assertThat, hm0, if_true, Option.bind_some, hc]
      obtain ⟨R, rs, e1, e2, e3, e4⟩ := rootsBetween_spec h0 hsq hlt ia ib
      refine ⟨R, rs, e1, e2, e3, fun x => ?_⟩
      rw [e4]
      constructor
      · rintro ⟨h', h⟩; exact ⟨⟨by simp, h'.2⟩, h⟩
      · rintro ⟨h', h⟩
        refine ⟨⟨fun a ha => ?_, h'.2⟩, h⟩
        cases ha; exact Or.inl (hroot x h).1
  | some a =>
    cases ob with
    | none =>
      have hlt : a < cauchyBound p (ipoly p).natDegree := by have := hr hd2; rwa [rv_natDegree] at this
      have hc := rangeChecks_ok h0 hsq (oa := some a) (ob := some (cauchyBound p (ipoly p).natDegree))
        (by rintro a b h1 h2; cases h1; cases h2; exact hlt)
      simp only [assertThat, hm0, if_true, Option.bind_some, hc]
      obtain ⟨R, rs, e1, e2, e3, e4⟩ := rootsBetween_spec h0 hsq hlt ia ib
      refine ⟨R, rs, e1, e2, e3, fun x => ?_⟩
      rw [e4]
      constructor
      · rintro ⟨h', h⟩; exact ⟨⟨h'.1, by simp⟩, h⟩
      · rintro ⟨h', h⟩
        refine ⟨⟨h'.1, fun b hb => ?_⟩, h⟩
        cases hb; exact Or.inl (hroot x h).2
    | some b => exact rootsBetween_spec h0 hsq hr ia ib

theorem rangeChecks_bad {p : List Int} {a b : ℚ} (h : ¬ a < b) : rangeChecks p (some a) (some b) = none := by
  unfold rangeChecks
  simp only [Option.bind_eq_bind, assertThat, decide_eq_false h]
  cases sqfreeCheck p <;> simp [Option.bind_eq_none_iff]

/-- It fails on the other ranges. -/
theorem rootsSquarefree_fails {p : List Int} {oa ob : Option ℚ} (h0 : rv p ≠ 0) (ia ib : Bool) (hr : ¬ RangeOk p oa ob) :
    rootsSquarefree p oa ob ia ib = none := by
  have hi := rv_ne_zero.1 h0
  have hdeg := intGcd_models.toSemi.polyDegree_some p hi
  cases oa with
  | none =>
    cases ob with
    | none => exact absurd trivial hr
    | some b =>
      simp only [RangeOk, rv_natDegree, Classical.not_imp] at hr
      unfold rootsSquarefree
      simp only [hdeg, Option.bind_eq_bind, Option.bind_some, if_neg (by omega : ¬ (ipoly p).natDegree = 0), if_neg (by omega : ¬ (ipoly p).natDegree = 1),
        rangeChecks_bad hr.2]
      simp [Option.bind_eq_none_iff]
  | some a =>
    cases ob with
    | none =>
      simp only [RangeOk, rv_natDegree, Classical.not_imp] at hr
      unfold rootsSquarefree
      simp only [hdeg, Option.bind_eq_bind, Option.bind_some, if_neg (by omega : ¬ (ipoly p).natDegree = 0), if_neg (by omega : ¬ (ipoly p).natDegree = 1),
        rangeChecks_bad hr.2]
      simp [Option.bind_eq_none_iff]
    | some b =>
      unfold rootsSquarefree
      rw [rangeChecks_bad hr]; rfl

end Verif.RealRoots
