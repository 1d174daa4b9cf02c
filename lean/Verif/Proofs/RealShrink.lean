import Verif.Proofs.CollinsAkritas
import Mathlib.Topology.Order.IntermediateValue
import Mathlib.Topology.Algebra.Polynomial

/-!
# Signs around a simple root; shrinking an interval
-/

namespace Verif.RealRoots

open Polynomial Verif.Rings

/-- A sign change encloses a root. -/
theorem exists_root_of_sign {f : ℝ[X]} {x y : ℝ} (hxy : x ≤ y) (h : f.eval x * f.eval y < 0) : ∃ r, x < r ∧ r < y ∧ f.eval r = 0 := by
  have hc : ContinuousOn (fun t => f.eval t) (Set.Icc x y) := f.continuous.continuousOn
  rcases mul_neg_iff.1 h with ⟨h1, h2⟩ | ⟨h1, h2⟩
  · obtain ⟨r, hr, hr0⟩ := intermediate_value_Ioo' hxy hc ⟨h2, h1⟩
    exact ⟨r, hr.1, hr.2, hr0⟩
  · obtain ⟨r, hr, hr0⟩ := intermediate_value_Ioo hxy hc ⟨h1, h2⟩
    exact ⟨r, hr.1, hr.2, hr0⟩

/-- Around its only root, which is simple, a polynomial changes its sign. -/
theorem sign_change {f : ℝ[X]} (hsq : Squarefree f) {x r y : ℝ} (hxr : x < r) (hry : r < y) (hr : f.eval r = 0)
    (hu : ∀ t, x ≤ t → t ≤ y → f.eval t = 0 → t = r) : f.eval x * f.eval y < 0 := by
  obtain ⟨g, hg⟩ := dvd_iff_isRoot.2 hr
  have hgr : g.eval r ≠ 0 := by
    intro e
    obtain ⟨k, rfl⟩ := dvd_iff_isRoot.2 e
    exact not_isUnit_X_sub_C r (hsq (X - C r) ⟨k, by rw [hg]; ring⟩)
  have hno : ∀ t, x ≤ t → t ≤ y → g.eval t ≠ 0 := by
    intro t h1 h2 h3
    have := hu t h1 h2 (by rw [hg, eval_mul, h3, mul_zero])
    subst this
    exact hgr h3
  have hpos : 0 < g.eval x * g.eval y := by
    by_contra hc
    have hne : g.eval x * g.eval y ≠ 0 := mul_ne_zero (hno x le_rfl (by linarith)) (hno y (by linarith) le_rfl)
    obtain ⟨t, h1, h2, h3⟩ := exists_root_of_sign (f := g) (by linarith : x ≤ y) (lt_of_le_of_ne (not_lt.1 hc) hne)
    exact hno t h1.le h2.le h3
  rw [hg, eval_mul, eval_mul]
  simp only [eval_sub, eval_X, eval_C]
  have e : (x - r) * g.eval x * ((y - r) * g.eval y) = (x - r) * (y - r) * (g.eval x * g.eval y) := by ring
  rw [e]
  exact mul_neg_of_neg_of_pos (mul_neg_of_neg_of_pos (by linarith) (by linarith)) hpos

theorem evalAtRat_zero (p : List Int) (x : ℚ) : evalAtRat p x = 0 ↔ (rv p).eval (x : ℝ) = 0 := by
  rw [← evalAtRat_eq]; norm_cast

theorem evalAtRat_pos (p : List Int) (x : ℚ) : 0 < evalAtRat p x ↔ 0 < (rv p).eval (x : ℝ) := by
  rw [← evalAtRat_eq]; norm_cast

theorem evalAtRat_neg (p : List Int) (x : ℚ) : evalAtRat p x < 0 ↔ (rv p).eval (x : ℝ) < 0 := by
  rw [← evalAtRat_eq]; norm_cast

theorem evalAtRat_nonneg (p : List Int) (x : ℚ) : 0 ≤ evalAtRat p x ↔ 0 ≤ (rv p).eval (x : ℝ) := by
  rw [← evalAtRat_eq]; norm_cast

/-- What the shrinking may return. -/
def ShrinkOk (f : ℝ[X]) (a b : ℚ) (r : ℝ) : ℚ ⊕ (ℚ × ℚ) → Prop
  | .inl x => r = x
  | .inr (u, v) => a ≤ u ∧ v ≤ b ∧ u < r ∧ r < v ∧ f.eval (u : ℝ) ≠ 0 ∧ f.eval (v : ℝ) ≠ 0

theorem shrinkLoop_spec {p : List Int} (hsq : Squarefree (rv p)) {a b : ℚ} {r : ℝ} (har : (a : ℝ) < r) (hrb : r < b) (hr : (rv p).eval r = 0)
    (hu : ∀ x : ℝ, a < x → x < b → (rv p).eval x = 0 → x = r) (n : Nat) :
    ∀ δ : ℚ, 0 < δ → 2 * δ < b - a → (δ : ℝ) < (r - a) * 2 ^ n → (δ : ℝ) < (b - r) * 2 ^ n →
      ∃ s, shrinkLoop p a b (a + δ) (b - δ) = some s ∧ ShrinkOk (rv p) a b r s := by
  have hstep : ∀ δ : ℚ, 0 < δ → 2 * δ < b - a →
      (∃ s, shrinkLoop p a b (a + δ) (b - δ) = some s ∧ ShrinkOk (rv p) a b r s) ∨
      (shrinkLoop p a b (a + δ) (b - δ) = shrinkLoop p a b (a + δ / 2) (b - δ / 2) ∧ ¬ ((a : ℝ) + δ < r ∧ r < b - δ)) := by
    intro δ hδ hδ2
    have q1 : (a : ℝ) < ((a + δ : ℚ) : ℝ) := by exact_mod_cast (by linarith : a < a + δ)
    have q2 : ((a + δ : ℚ) : ℝ) < ((b - δ : ℚ) : ℝ) := by exact_mod_cast (by linarith : a + δ < b - δ)
    have q3 : ((b - δ : ℚ) : ℝ) < (b : ℝ) := by exact_mod_cast (by linarith : b - δ < b)
    by_cases h1 : evalAtRat p (a + δ) = 0
    · left
      refine ⟨.inl (a + δ), by rw [shrinkLoop, if_pos h1], ?_⟩
      exact (hu _ q1 (by linarith) ((evalAtRat_zero _ _).1 h1)).symm
    by_cases h2 : evalAtRat p (b - δ) = 0
    · left
      refine ⟨.inl (b - δ), by rw [shrinkLoop, if_neg h1, if_pos h2], ?_⟩
      exact (hu _ (by linarith) q3 ((evalAtRat_zero _ _).1 h2)).symm
    have n1 := fun e => h1 ((evalAtRat_zero _ _).2 e)
    have n2 := fun e => h2 ((evalAtRat_zero _ _).2 e)
    by_cases h3 : (decide (evalAtRat p (a + δ) ≥ 0) != decide (evalAtRat p (b - δ) ≥ 0)) = true
    · left
      refine ⟨.inr (a + δ, b - δ), by rw [shrinkLoop, if_neg h1, if_neg h2, if_pos h3], ?_⟩
      have hneg : (rv p).eval ((a + δ : ℚ) : ℝ) * (rv p).eval ((b - δ : ℚ) : ℝ) < 0 := by
        simp only [bne_iff_ne, ne_eq, decide_eq_decide, ge_iff_le, evalAtRat_nonneg] at h3
        rw [mul_neg_iff]
        by_cases h4 : 0 ≤ (rv p).eval ((a + δ : ℚ) : ℝ)
        · left
          exact ⟨lt_of_le_of_ne h4 (Ne.symm n1), not_le.1 fun h5 => h3 ⟨fun _ => h5, fun _ => h4⟩⟩
        · right
          refine ⟨not_le.1 h4, lt_of_le_of_ne (not_lt.1 fun h5 => h3 ⟨fun h6 => absurd h6 h4, fun h6 => absurd h6 (not_le.2 h5)⟩) (Ne.symm n2)⟩
      obtain ⟨t, t1, t2, t3⟩ := exists_root_of_sign q2.le hneg
      have := hu t (by linarith) (by linarith) t3
      subst this
      exact ⟨by linarith, by linarith, t1, t2, n1, n2⟩
    · right
      constructor
      · rw [shrinkLoop, if_neg h1, if_neg h2, if_neg h3]
        congr 1 <;> ring
      · rintro ⟨h4, h5⟩
        apply h3
        have hneg := sign_change hsq (x := ((a + δ : ℚ) : ℝ)) (y := ((b - δ : ℚ) : ℝ)) (by push_cast; exact h4) (by push_cast; exact h5) hr
          (fun t ht1 ht2 ht => hu t (by linarith) (by linarith) ht)
        simp only [bne_iff_ne, ne_eq, decide_eq_decide, ge_iff_le, evalAtRat_nonneg]
        intro h6
        rcases mul_neg_iff.1 hneg with ⟨u, v⟩ | ⟨u, v⟩
        · linarith [h6.1 u.le]
        · linarith [h6.2 v.le]
  induction n with
  | zero =>
    intro δ h1 h2 h3 h4
    rcases hstep δ h1 h2 with h | ⟨-, h⟩
    · exact h
    · exact absurd ⟨by linarith, by linarith⟩ h
  | succ n ih =>
    intro δ h1 h2 h3 h4
    rcases hstep δ h1 h2 with h | ⟨h, -⟩
    · exact h
    · rw [h]
      rw [pow_succ] at h3 h4
      refine ih (δ / 2) (by linarith) (by linarith) ?_ ?_ <;> push_cast <;> linarith

theorem shrink_spec {p : List Int} (hsq : Squarefree (rv p)) {a b : ℚ} {r : ℝ} (har : (a : ℝ) < r) (hrb : r < b) (hr : (rv p).eval r = 0)
    (hu : ∀ x : ℝ, a < x → x < b → (rv p).eval x = 0 → x = r) : ∃ s, shrink p a b = some s ∧ ShrinkOk (rv p) a b r s := by
  have hab : a < b := by exact_mod_cast (har.trans hrb)
  unfold shrink
  split
  · obtain ⟨n, hn⟩ := pow_unbounded_of_one_lt (((b - a) / 4 : ℚ) / min (r - a) (b - r)) (one_lt_two)
    have hm : 0 < min (r - a) (b - r) := lt_min (by linarith) (by linarith)
    rw [div_lt_iff₀ hm] at hn
    have h2 : (0 : ℝ) < 2 ^ n := by positivity
    have := shrinkLoop_spec hsq har hrb hr hu n ((b - a) / 4) (by linarith) (by linarith)
      (by nlinarith [mul_le_mul_of_nonneg_left (min_le_left (r - a) (b - r)) h2.le])
      (by nlinarith [mul_le_mul_of_nonneg_left (min_le_right (r - a) (b - r)) h2.le])
    convert this using 5 <;> ring
  · rename_i h
    push Not at h
    exact ⟨_, rfl, le_rfl, le_rfl, har, hrb, fun e => h.1 ((evalAtRat_zero _ _).2 e), fun e => h.2 ((evalAtRat_zero _ _).2 e)⟩

/-- The interval recorded for an isolated root. -/
theorem openIv_spec {p : List Int} (hsq : Squarefree (rv p)) {a b : ℚ} {r : ℝ} (har : (a : ℝ) < r) (hrb : r < b) (hr : (rv p).eval r = 0)
    (hu : ∀ x : ℝ, a < x → x < b → (rv p).eval x = 0 → x = r) :
    ∃ i, openIv p a b = some i ∧ i.Isolates (rv p) r ∧ a ≤ i.lo ∧ i.hi ≤ b := by
  obtain ⟨s, e, hs⟩ := shrink_spec hsq har hrb hr hu
  unfold openIv
  rw [e]
  simp only [Option.bind_eq_bind, Option.bind_some]
  cases s with
  | inl x =>
    have hx : r = x := hs
    refine ⟨.rational x, rfl, ⟨hx, hr⟩, ?_, ?_⟩
    · change a ≤ x
      rw [hx] at har; exact_mod_cast har.le
    · change x ≤ b
      rw [hx] at hrb; exact_mod_cast hrb.le
  | inr uv =>
    obtain ⟨u, v⟩ := uv
    obtain ⟨h1, h2, h3, h4, h5, h6⟩ := hs
    have h1' : (a : ℝ) ≤ u := by exact_mod_cast h1
    have h2' : (v : ℝ) ≤ b := by exact_mod_cast h2
    have huniq : ∀ x : ℝ, u ≤ x → x ≤ v → (rv p).eval x = 0 → x = r := by
      intro x hx1 hx2 hx
      apply hu x _ _ hx
      · rcases eq_or_lt_of_le hx1 with e | e
        · rw [← e] at hx; exact absurd hx h5
        · linarith
      · rcases eq_or_lt_of_le hx2 with e | e
        · rw [e] at hx; exact absurd hx h6
        · linarith
    have hneg := sign_change hsq h3 h4 hr huniq
    have e1 : evalAtRat p u ≠ 0 := fun e => h5 ((evalAtRat_zero _ _).1 e)
    have e2 : evalAtRat p v ≠ 0 := fun e => h6 ((evalAtRat_zero _ _).1 e)
    have e3 : (decide (evalAtRat p u > 0) != decide (evalAtRat p v > 0)) = true := by
      simp only [bne_iff_ne, ne_eq, decide_eq_decide, gt_iff_lt, evalAtRat_pos]
      intro h
      rcases mul_neg_iff.1 hneg with ⟨x, y⟩ | ⟨x, y⟩
      · linarith [h.1 x]
      · linarith [h.2 y]
    refine ⟨.real u v (decide (evalAtRat p v > 0)), ?_, ⟨h3, h4, hr, huniq, ?_⟩, h1, h2⟩
    · have e3' : ¬(0 < evalAtRat p u ↔ 0 < evalAtRat p v) := by simpa using e3
      simp [assertThat, e1, e2, e3']
    · simp only [decide_eq_true_eq, gt_iff_lt, evalAtRat_pos]
      rcases mul_neg_iff.1 hneg with ⟨x, y⟩ | ⟨x, y⟩
      · rw [if_neg (by linarith)]; exact ⟨x, y⟩
      · rw [if_pos y]; exact ⟨x, y⟩

end Verif.RealRoots
