import Verif.Proofs.PadicSearch
import Verif.Proofs.PadicShift

/-!
# Refinement of p-adic balls where Newton's method does not apply: more of C158 and C163
-/

namespace Verif.Padic

open Polynomial Verif.Rings Verif.RealRoots

/-! ## C158: the digit search -/

/-- **C158**, the digit search used where Newton's method does not apply: for every polynomial, every ball with integral centre and
every target it ends. A ball that is returned lies in the given ball, has more digits than the target, and its centre is a root of the
polynomial modulo that many digits and modulo `p ^ (2 * target - 1)`; no ball is returned only if the given ball contains no integral
root. -/
theorem C158_digit_search {p : ℕ} [Fact p.Prime] (f : List Int) (b : Ball) (target : ℤ) (hv : 0 ≤ b.v) (hb : ‖(b.a : ℚ_[p])‖ ≤ 1) :
    ∃ o, refine0Impl p f b target = some o ∧
      (∀ b', o = some b' → (∀ y : ℚ_[p], b'.Contains y → b.Contains y) ∧ target < b'.v ∧ ‖(pv p f).eval (b'.a : ℚ_[p])‖ ≤ (p : ℝ) ^ (-b'.v) ∧
        ‖(pv p f).eval (b'.a : ℚ_[p])‖ < (p : ℝ) ^ (-(2 * target - 2))) ∧
      (o = none → ∀ z : ℚ_[p], ‖z‖ ≤ 1 → (pv p f).eval z = 0 → ¬ b.Contains z) := by
  obtain ⟨o, o1, o2, o3⟩ := refine0Impl_spec (p := p) f target (2 * target.natAbs + 1) b hv hb (by omega) (by omega)
  exact ⟨o, o1, fun b' h => ⟨(o2 b' h).inside, (o2 b' h).digits, (o2 b' h).small, (o2 b' h).hensel⟩, o3⟩

/-! ## C163: digits of sums -/

section
local instance factTwoSearch : Fact (Nat.Prime 2) := ⟨Nat.prime_two⟩

/-- **C163, negation**: the sum of a root and a rational number can be refined to wrong digits. `all_padic_roots` of `x⁴ + 24x + 96`
in the 2-adic numbers gives two roots; the sum of the second one, `x`, and 1 is represented correctly, but the three digits that the
code gives for it are `1 1 0`, with or without debug assertions, while `x + 1` is not congruent to 3 modulo 8. -/
theorem C163_digits_wrong {fac : Fac} (hfac : FacOk fac) (dbg : Bool) :
    isolate fac 2 [96, 24, 0, 0, 1] = some [⟨4, 3⟩, ⟨2, 2⟩] ∧
    ∃ x : ℚ_[2], PRoot.Is ⟨[96, 24, 0, 0, 1], ⟨2, 2⟩⟩ x ∧ ∃ s s' : PRoot, PRoot.addRat ⟨[96, 24, 0, 0, 1], ⟨2, 2⟩⟩ 1 = some s ∧ s.Denotes (x + 1) ∧
      s.truncate dbg fac 2 3 = some (.nonZero 3 0 3, s') ∧ ¬ s'.approx.Contains (x + 1) ∧ ¬ ‖(x + 1) - 3‖ ≤ (2 : ℝ) ^ (-3 : ℤ) := by
  obtain ⟨x, hx⟩ := exists_Q
  obtain ⟨a1, a2⟩ := addQ hx
  have hn : ¬ ‖(x + 1) - 3‖ ≤ (2 : ℝ) ^ (-3 : ℤ) := by
    intro h
    refine Q_digit hx.isolates.root ?_
    rwa [show x - 2 = x + 1 - 3 by ring]
  refine ⟨isolateQ hfac, x, hx, _, ⟨[73, 20, 6, -4, 1], ⟨3, 3⟩⟩, a1, a2, ?_, ?_, hn⟩
  · unfold PRoot.truncate
    rw [prefineQ hfac dbg]
    simp only [Option.bind_eq_bind, Option.bind_some]
    have : ratTruncate 2 3 3 = some (.nonZero 3 0 3) := by
      rw [show (3 : ℤ) = 0 + (3 : ℕ) by norm_num]
      exact ratTruncate_of (by decide) (by decide) (by decide) (by decide +kernel)
    rw [this]
    rfl
  · intro h
    apply hn
    have h : ‖(x + 1) - ((3 : ℚ) : ℚ_[2])‖ ≤ ((2 : ℕ) : ℝ) ^ (-3 : ℤ) := h
    push_cast at h
    exact h

/-- `C158_digit_search`: the ball `3 + O(4)` and the polynomial of the sum. -/
example : 0 ≤ (⟨3, 2⟩ : Ball).v ∧ ‖(((⟨3, 2⟩ : Ball).a : ℚ) : ℚ_[2])‖ ≤ 1 := by
  refine ⟨by decide, ?_⟩
  have := _root_.Padic.norm_int_le_one (p := 2) 3
  push_cast at this ⊢
  exact this

end

end Verif.Padic
