import Mathlib.Algebra.Polynomial.Reverse
import Mathlib.Analysis.Complex.Polynomial.Basic
import Mathlib.Analysis.Polynomial.Basic
import Mathlib.Topology.Algebra.Polynomial
import Mathlib.Topology.Order.IntermediateValue
import Mathlib.Tactic.Linarith
import Mathlib.Tactic.FieldSimp
import Mathlib.Tactic.Positivity

/-!
# Sign changes and roots

What is needed of Descartes' rule of signs: no sign change means no positive root, one sign change means exactly one; and of Vincent's
theorem: on short intervals there is at most one sign change.
-/

namespace Verif.RealRoots

open Polynomial

/-- At most one sign change, and it goes up. -/
def UpOnce (f : ℝ[X]) : Prop := ∀ n m, n < m → 0 < f.coeff n → 0 ≤ f.coeff m

theorem eval_pos_of_nonneg {f : ℝ[X]} (h : ∀ n, 0 ≤ f.coeff n) (h0 : f ≠ 0) {x : ℝ} (hx : 0 < x) : 0 < f.eval x := by
  rw [eval_eq_sum_range]
  refine Finset.sum_pos' (fun i _ => mul_nonneg (h i) (pow_pos hx i).le) ⟨f.natDegree, by simp, ?_⟩
  exact mul_pos (lt_of_le_of_ne (h _) (Ne.symm (leadingCoeff_ne_zero.2 h0))) (pow_pos hx _)

theorem upOnce_mono {f : ℝ[X]} (h : UpOnce f) (hneg : ∃ n, f.coeff n < 0) {k : Nat} (hk : 0 < f.coeff k) (hmin : ∀ n < k, ¬ 0 < f.coeff n)
    {x y : ℝ} (hx : 0 < x) (hxy : x < y) : y ^ k * f.eval x < x ^ k * f.eval y := by
  obtain ⟨n0, hn0⟩ := hneg
  have hn0k : n0 < k := by
    by_contra hc
    rcases Nat.lt_or_eq_of_le (not_lt.1 hc) with h1 | h1
    · exact absurd (h k n0 h1 hk) (not_le.2 hn0)
    · subst h1; linarith
  have hy : 0 < y := hx.trans hxy
  have hn0d : n0 ∈ Finset.range (f.natDegree + 1) := by
    rw [Finset.mem_range, Nat.lt_succ_iff]
    exact le_natDegree_of_ne_zero hn0.ne
  rw [eval_eq_sum_range, eval_eq_sum_range, Finset.mul_sum, Finset.mul_sum]
  have key : ∀ n, n < k → x ^ k * y ^ n < y ^ k * x ^ n := by
    intro n hn
    obtain ⟨d, rfl⟩ : ∃ d, k = n + d := ⟨k - n, by omega⟩
    have : x ^ d < y ^ d := pow_lt_pow_left₀ hxy hx.le (by omega)
    have h2 : 0 < x ^ n * y ^ n := by positivity
    rw [pow_add, pow_add]
    nlinarith
  have key2 : ∀ n, k ≤ n → y ^ k * x ^ n ≤ x ^ k * y ^ n := by
    intro n hn
    obtain ⟨d, rfl⟩ : ∃ d, n = k + d := ⟨n - k, by omega⟩
    have : x ^ d ≤ y ^ d := pow_le_pow_left₀ hx.le hxy.le d
    have h2 : 0 < x ^ k * y ^ k := by positivity
    rw [pow_add, pow_add]
    nlinarith
  refine Finset.sum_lt_sum (fun n _ => ?_) ⟨n0, hn0d, ?_⟩
  · rcases lt_or_ge n k with hn | hn
    · have h1 := not_lt.1 (hmin n hn)
      have h2 := (key n hn).le
      nlinarith
    · have h1 : 0 ≤ f.coeff n := by
        rcases Nat.lt_or_eq_of_le hn with h3 | h3
        · exact h k n h3 hk
        · subst h3; exact hk.le
      have h2 := key2 n hn
      nlinarith
  · have h2 := key n0 hn0k
    nlinarith

theorem exists_eval_pos {f : ℝ[X]} (h : UpOnce f) (hneg : ∃ n, f.coeff n < 0) (hpos : ∃ m, 0 < f.coeff m) : ∃ y, 0 < y ∧ 0 < f.eval y := by
  obtain ⟨n, hn⟩ := hneg
  obtain ⟨m, hm⟩ := hpos
  have h0 : f ≠ 0 := fun h0 => by rw [h0] at hn; simp at hn
  have hlc : 0 < f.leadingCoeff := by
    rcases Nat.lt_or_eq_of_le (le_natDegree_of_ne_zero hm.ne') with h1 | h1
    · exact lt_of_le_of_ne (h m _ h1 hm) (Ne.symm (leadingCoeff_ne_zero.2 h0))
    · rw [leadingCoeff, ← h1]; exact hm
  have hd : 0 < f.natDegree := by
    rcases Nat.eq_zero_or_pos f.natDegree with h1 | h1
    · have h2 := le_natDegree_of_ne_zero hm.ne'
      have h3 := le_natDegree_of_ne_zero hn.ne
      have : n = m := by omega
      subst this
      linarith
    · exact h1
  have ht := tendsto_atTop_of_leadingCoeff_nonneg f (natDegree_pos_iff_degree_pos.1 hd) hlc.le
  obtain ⟨y, hy1, hy2⟩ := ((ht.eventually_gt_atTop 0).and (Filter.eventually_gt_atTop 0)).exists
  exact ⟨y, hy2, hy1⟩

theorem exists_eval_neg {f : ℝ[X]} (h : UpOnce f) (hneg : ∃ n, f.coeff n < 0) : ∃ y, 0 < y ∧ f.eval y < 0 := by
  obtain ⟨n, hn⟩ := hneg
  have hex : ∃ j, f.coeff j ≠ 0 := ⟨n, hn.ne⟩
  classical
  obtain ⟨j, hj, hmin⟩ : ∃ j, f.coeff j ≠ 0 ∧ ∀ i < j, f.coeff i = 0 :=
    ⟨Nat.find hex, Nat.find_spec hex, fun i hi => not_not.1 (Nat.find_min hex hi)⟩
  have hj' : f.coeff j < 0 := by
    by_contra hc
    have h1 : 0 < f.coeff j := lt_of_le_of_ne (not_lt.1 hc) (Ne.symm hj)
    rcases lt_trichotomy j n with h2 | h2 | h2
    · exact absurd (h j n h2 h1) (not_le.2 hn)
    · subst h2; linarith
    · exact hn.ne (hmin n h2)
  obtain ⟨g, rfl⟩ := X_pow_dvd_iff.2 hmin
  have hg : g.eval 0 < 0 := by
    rw [← coeff_zero_eq_eval_zero]
    rw [mul_comm, coeff_mul_X_pow'] at hj'
    simpa using hj'
  have hc := (g.continuous.continuousAt (x := 0)).eventually (gt_mem_nhds hg)
  obtain ⟨ε, hε, hc⟩ := Metric.eventually_nhds_iff.1 hc
  refine ⟨ε / 2, by linarith, ?_⟩
  have h1 : g.eval (ε / 2) < 0 := hc (by rw [Real.dist_eq, sub_zero, abs_of_pos] <;> linarith)
  rw [eval_mul, eval_pow, eval_X]
  have : 0 < (ε / 2) ^ j := by positivity
  nlinarith

/-- One sign change: exactly one positive root, where the polynomial changes its sign. -/
theorem upOnce_root {f : ℝ[X]} (h : UpOnce f) (hneg : ∃ n, f.coeff n < 0) (hpos : ∃ m, 0 < f.coeff m) :
    ∃ r, 0 < r ∧ f.eval r = 0 ∧ (∀ x, 0 < x → x < r → f.eval x < 0) ∧ ∀ x, r < x → 0 < f.eval x := by
  obtain ⟨x, hx, hx1⟩ := exists_eval_neg h hneg
  obtain ⟨y, hy, hy1⟩ := exists_eval_pos h hneg hpos
  classical
  obtain ⟨k, hk, hmin⟩ : ∃ k, 0 < f.coeff k ∧ ∀ n < k, ¬ 0 < f.coeff n := ⟨Nat.find hpos, Nat.find_spec hpos, fun i hi => Nat.find_min hpos hi⟩
  have mono := fun {x y : ℝ} => upOnce_mono h hneg hk hmin (x := x) (y := y)
  have hxy : x < y := by
    rcases lt_trichotomy x y with h1 | h1 | h1
    · exact h1
    · subst h1; linarith
    · have h2 := mono hy h1
      have h3 : 0 < x ^ k := by positivity
      have h4 : 0 < y ^ k := by positivity
      nlinarith
  obtain ⟨r, ⟨hr1, hr2⟩, hr⟩ := intermediate_value_Icc hxy.le f.continuous.continuousOn (show (0 : ℝ) ∈ Set.Icc (f.eval x) (f.eval y) from ⟨hx1.le, hy1.le⟩)
  replace hr : f.eval r = 0 := hr
  have hr0 : 0 < r := lt_of_lt_of_le hx hr1
  refine ⟨r, hr0, hr, fun z hz hzr => ?_, fun z hz => ?_⟩
  · have h2 := mono hz hzr
    rw [hr, mul_zero] at h2
    have h3 : 0 < r ^ k := by positivity
    by_contra hc
    have := mul_nonneg h3.le (not_lt.1 hc)
    linarith
  · have h2 := mono hr0 hz
    rw [hr, mul_zero] at h2
    have h3 : 0 < r ^ k := by positivity
    exact pos_of_mul_pos_right h2 h3.le

/-! ## The transformation of (0, 1) to the positive numbers -/

/-- The polynomial whose positive roots are `1 / x - 1` for the roots `x` of `q` in (0, 1). -/
noncomputable def phi (q : ℝ[X]) : ℝ[X] := q.reverse.comp (X + C 1)

theorem phi_mul (p q : ℝ[X]) : phi (p * q) = phi p * phi q := by
  unfold phi
  rw [reverse_mul_of_domain, mul_comp]

theorem phi_eval (q : ℝ[X]) {x : ℝ} (hx : x ≠ 0) : (phi q).eval (x⁻¹ - 1) * x ^ q.natDegree = q.eval x := by
  unfold phi
  rw [eval_comp]
  have : (X + C 1 : ℝ[X]).eval (x⁻¹ - 1) = x⁻¹ := by simp
  rw [this]
  letI : Invertible x := invertibleOfNonzero hx
  have h := eval₂_reverse_mul_pow (RingHom.id ℝ) x q
  rw [invOf_eq_inv] at h
  simpa [eval₂_id] using h

theorem phi_ne_zero {q : ℝ[X]} (h : q ≠ 0) : phi q ≠ 0 := by
  intro h0
  unfold phi at h0
  rw [comp_eq_zero_iff] at h0
  rcases h0 with h1 | ⟨-, h1⟩
  · rw [reverse_eq_zero] at h1; exact h h1
  · have := congrArg (fun p => p.coeff 1) h1
    simp at this

/-- No sign change: no root in (0, 1). -/
theorem no_root_of_nonneg {q : ℝ[X]} (h0 : q ≠ 0) (h : ∀ n, 0 ≤ (phi q).coeff n) {x : ℝ} (hx : 0 < x) (hx1 : x < 1) : q.eval x ≠ 0 := by
  intro hq
  have h1 := phi_eval q hx.ne'
  have h2 : 0 < x⁻¹ - 1 := by
    have := (one_lt_inv₀ hx).2 hx1
    linarith
  have h3 := eval_pos_of_nonneg h (phi_ne_zero h0) h2
  rw [hq] at h1
  have h4 : 0 < x ^ q.natDegree := by positivity
  have := mul_pos h3 h4
  linarith

/-- One sign change: exactly one root in (0, 1), where the polynomial changes its sign. -/
theorem one_root_of_upOnce {q : ℝ[X]} (h : UpOnce (phi q)) (hneg : ∃ n, (phi q).coeff n < 0) (hpos : ∃ m, 0 < (phi q).coeff m) :
    ∃ r, 0 < r ∧ r < 1 ∧ q.eval r = 0 ∧ (∀ x, 0 < x → x < r → 0 < q.eval x) ∧ ∀ x, r < x → x < 1 → q.eval x < 0 := by
  obtain ⟨s, hs, hs1, hs2, hs3⟩ := upOnce_root h hneg hpos
  have key : ∀ x : ℝ, 0 < x → x < 1 → 0 < x⁻¹ - 1 := fun x hx hx1 => by
    have := (one_lt_inv₀ hx).2 hx1
    linarith
  have hr : 0 < (s + 1)⁻¹ := by positivity
  refine ⟨(s + 1)⁻¹, hr, inv_lt_one_of_one_lt₀ (by linarith), ?_, fun x hx hxr => ?_, fun x hx hx1 => ?_⟩
  · rw [← phi_eval q hr.ne', inv_inv, add_sub_cancel_right, hs1, zero_mul]
  · rw [← phi_eval q hx.ne']
    have h1 : s + 1 < x⁻¹ := by rw [lt_inv_comm₀ (by linarith) hx]; exact hxr
    exact mul_pos (hs3 _ (by linarith)) (by positivity)
  · have hx0 : 0 < x := hr.trans hx
    rw [← phi_eval q hx0.ne']
    have h1 : x⁻¹ < s + 1 := by rw [inv_lt_comm₀ hx0 (by linarith)]; exact hx
    exact mul_neg_of_neg_of_pos (hs2 _ (key x hx0 hx1) (by linarith)) (by positivity)

end Verif.RealRoots
