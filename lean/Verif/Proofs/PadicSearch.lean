import Verif.Proofs.PadicRefine

/-!
# The digit search of the refinement without Newton's method
-/

namespace Verif.Padic

open Polynomial Verif.Rings Verif.RealRoots

variable {p : ℕ} [hp : Fact p.Prime]

/-- what a ball found by the search satisfies -/
structure FoundBall (f : List Int) (b : Ball) (target : ℤ) (b' : Ball) : Prop where
  inside : ∀ y : ℚ_[p], b'.Contains y → b.Contains y
  digits : target < b'.v
  small : ‖(pv p f).eval (b'.a : ℚ_[p])‖ ≤ (p : ℝ) ^ (-b'.v)
  hensel : ‖(pv p f).eval (b'.a : ℚ_[p])‖ < (p : ℝ) ^ (-(2 * target - 2))

/-- a right answer of the search -/
def SearchAnswer (p : ℕ) [Fact p.Prime] (f : List Int) (b : Ball) (target : ℤ) (o : Option Ball) : Prop :=
  (∀ b', o = some b' → FoundBall (p := p) f b target b') ∧ (o = none → ∀ z : ℚ_[p], ‖z‖ ≤ 1 → (pv p f).eval z = 0 → ¬ b.Contains z)

/-- the ball of the next digit -/
theorem child_inside (b : Ball) (k : ℕ) (y : ℚ_[p]) (h : Ball.Contains ⟨b.a + (k : ℚ) * (p : ℚ) ^ b.v, b.v + 1⟩ y) : b.Contains y := by
  unfold Ball.Contains at h ⊢
  have e : y - (b.a : ℚ_[p]) = (y - ((b.a + (k : ℚ) * (p : ℚ) ^ b.v : ℚ) : ℚ_[p])) + (k : ℚ_[p]) * (p : ℚ_[p]) ^ b.v := by push_cast; ring
  rw [e]
  refine (_root_.Padic.nonarchimedean _ _).trans (max_le (h.trans ?_) ?_)
  · exact zpow_le_zpow_right₀ p_one.le (by simp)
  · rw [norm_mul, _root_.norm_zpow, _root_.Padic.norm_p, inv_zpow, ← zpow_neg]
    refine mul_le_of_le_one_left (zpow_pos p_pos _).le ?_
    exact_mod_cast _root_.Padic.norm_int_le_one (p := p) (k : ℤ)

theorem search_of_impl (f : List Int) (b : Ball) (target : ℤ) (hv : 0 ≤ b.v) (hb : ‖(b.a : ℚ_[p])‖ ≤ 1)
    (h : ∀ k : ℕ, ∃ o, refine0Impl p f ⟨b.a + (k : ℚ) * (p : ℚ) ^ b.v, b.v + 1⟩ target = some o ∧
      SearchAnswer p f ⟨b.a + (k : ℚ) * (p : ℚ) ^ b.v, b.v + 1⟩ target o) :
    ∃ o, refine0Search p f b target 0 = some o ∧ SearchAnswer p f b target o := by
  have main : ∀ m k, k + m = p → (∀ l < k, ∀ z : ℚ_[p], ‖z‖ ≤ 1 → (pv p f).eval z = 0 → ¬ Ball.Contains ⟨b.a + (l : ℚ) * (p : ℚ) ^ b.v, b.v + 1⟩ z) →
      ∃ o, refine0Search p f b target k = some o ∧ SearchAnswer p f b target o := by
    intro m
    induction m with
    | zero =>
      intro k hk hl
      refine ⟨none, by rw [refine0Search, if_neg (by omega)], by simp, ?_⟩
      intro _ z hz hr hc
      obtain ⟨n, hn⟩ : ∃ n : ℕ, b.v = n := ⟨b.v.natAbs, by omega⟩
      obtain ⟨k', k1, k2⟩ := exists_digit (p := p) (i := ⟨(b.a : ℚ_[p]), hb⟩) (z := ⟨z, hz⟩) (β := n) (by
        rw [PadicInt.norm_def]
        push_cast
        rw [← hn]
        exact hc)
      refine hl k' (by omega) z hz hr ?_
      unfold Ball.Contains
      rw [PadicInt.norm_def] at k2
      push_cast at k2 ⊢
      rw [hn, zpow_natCast]
      push_cast at k2
      exact k2
    | succ m ih =>
      intro k hk hl
      obtain ⟨o, o1, o2, o3⟩ := h k
      rw [refine0Search, if_pos (by omega), o1]
      cases o with
      | some b' =>
        refine ⟨some b', rfl, ?_, by simp⟩
        rintro b'' ⟨rfl⟩
        have := o2 b' rfl
        exact ⟨fun y hy => child_inside b k y (this.inside y hy), this.digits, this.small, this.hensel⟩
      | none =>
        refine ih (k + 1) (by omega) fun l hlk => ?_
        rcases Nat.lt_succ_iff_lt_or_eq.1 hlk with h1 | rfl
        · exact hl l h1
        · exact o3 rfl
  exact main p 0 (by omega) (by simp)

/-- the value at the centre of a ball with a root is small -/
theorem root_small (f : List Int) (b : Ball) (z : ℚ_[p]) (hb : ‖(b.a : ℚ_[p])‖ ≤ 1) (hz : ‖z‖ ≤ 1) (hr : (pv p f).eval z = 0) (hc : b.Contains z) :
    ‖(pv p f).eval (b.a : ℚ_[p])‖ ≤ (p : ℝ) ^ (-b.v) := by
  have h3 := aeval_sub_le (p := p) (polyVal (id : Int → Int) f) ⟨(b.a : ℚ_[p]), hb⟩ ⟨z, hz⟩
  have h4 := coe_aeval (p := p) (polyVal (id : Int → Int) f) ⟨(b.a : ℚ_[p]), hb⟩
  have h5 := coe_aeval (p := p) (polyVal (id : Int → Int) f) ⟨z, hz⟩
  rw [PadicInt.norm_def, PadicInt.norm_def, PadicInt.coe_sub, h4, h5] at h3
  change ‖(pv p f).eval (b.a : ℚ_[p]) - (pv p f).eval z‖ ≤ ‖(b.a : ℚ_[p]) - z‖ at h3
  rw [hr, sub_zero, norm_sub_rev] at h3
  exact h3.trans hc

/-- The digit search always ends. A ball that it returns lies in the given ball and has more digits than asked for; if it returns nothing
then the given ball contains no root of the polynomial. -/
theorem refine0Impl_spec (f : List Int) (target : ℤ) : ∀ (m : ℕ) (b : Ball), 0 ≤ b.v → ‖(b.a : ℚ_[p])‖ ≤ 1 → target < b.v + m → 2 * target - 2 < b.v + m →
    ∃ o, refine0Impl p f b target = some o ∧ SearchAnswer p f b target o := by
  intro m
  induction m with
  | zero =>
    intro b hv hb h1 h2
    obtain ⟨w, w1, w2⟩ := ratVal_norm (p := p) (evalAtRat f b.a)
    rw [evalRat_cast] at w2
    rw [refine0Impl, w1]
    by_cases hle : (Valu.finite b.v).le w = true
    · have hs : (Valu.finite (2 * target - 2)).lt w = true := by
        rw [Valu.lt_iff (p := p)]
        rw [Valu.le_iff (p := p)] at hle
        refine hle.trans_lt ?_
        exact zpow_lt_zpow_right₀ p_one (by simp at h2 ⊢; omega)
      refine ⟨some b, ?_, ?_, by simp⟩
      · have ht : target < b.v := by simpa using h1
        simp [assertThat, hv, hle, hs, ht]
      · rintro b'' ⟨rfl⟩
        rw [Valu.le_iff (p := p), w2] at hle
        rw [Valu.lt_iff (p := p), w2] at hs
        exact ⟨fun y hy => hy, by simpa using h1, hle, hs⟩
    · refine ⟨none, by simp [assertThat, hv, hle], by simp, ?_⟩
      intro _ z hz hr hc
      apply hle
      rw [Valu.le_iff (p := p), w2]
      exact root_small f b z hb hz hr hc
  | succ m ih =>
    intro b hv hb h1 h2
    obtain ⟨w, w1, w2⟩ := ratVal_norm (p := p) (evalAtRat f b.a)
    rw [evalRat_cast] at w2
    by_cases hle : (Valu.finite b.v).le w = true
    · by_cases hs : target < b.v ∧ (Valu.finite (2 * target - 2)).lt w = true
      · refine ⟨some b, ?_, ?_, by simp⟩
        · rw [refine0Impl, w1]
          simp [assertThat, hv, hle, hs.1, hs.2]
        · rintro b'' ⟨rfl⟩
          obtain ⟨ht, hs⟩ := hs
          rw [Valu.le_iff (p := p), w2] at hle
          rw [Valu.lt_iff (p := p), w2] at hs
          exact ⟨fun y hy => hy, ht, hle, hs⟩
      · have e : refine0Impl p f b target = refine0Search p f b target 0 := by
          rw [refine0Impl, w1]
          have : (decide (target < b.v) && (Valu.finite (2 * target - 2)).lt w) = false := by
            rw [← Bool.not_eq_true, Bool.and_eq_true, decide_eq_true_eq]
            exact hs
          simp only [assertThat, hv, hle, this, decide_true, if_true, Option.bind_eq_bind, Option.bind_some, Bool.not_true, Bool.false_eq_true, if_false]
        rw [e]
        refine search_of_impl f b target hv hb fun k => ih _ (by simp only; omega) ?_ (by push_cast at h1 ⊢; omega) (by push_cast at h2 ⊢; omega)
        have hk : (((b.a + (k : ℚ) * (p : ℚ) ^ b.v : ℚ)) : ℚ_[p]) = (b.a : ℚ_[p]) + (k : ℚ_[p]) * (p : ℚ_[p]) ^ b.v := by push_cast; ring
        rw [hk]
        refine (_root_.Padic.nonarchimedean _ _).trans (max_le hb ?_)
        rw [norm_mul, _root_.norm_zpow, _root_.Padic.norm_p, inv_zpow, ← zpow_neg]
        refine mul_le_one₀ (by exact_mod_cast _root_.Padic.norm_int_le_one (p := p) (k : ℤ)) (zpow_pos p_pos _).le ?_
        exact zpow_le_one_of_nonpos₀ p_one.le (by omega)
    · refine ⟨none, by rw [refine0Impl, w1]; simp [assertThat, hv, hle], by simp, ?_⟩
      intro _ z hz hr hc
      apply hle
      rw [Valu.le_iff (p := p), w2]
      exact root_small f b z hb hz hr hc

end Verif.Padic
