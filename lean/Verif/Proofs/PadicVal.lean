import Verif.Spec.Padic

/-!
# Valuations
-/

namespace Verif.Padic

open Polynomial Verif.Rings

theorem natValLoop_eq {p : ℕ} (hp : p.Prime) : ∀ (n : ℕ), 0 < n → ∀ k, natValLoop p n k = k + padicValNat p n := by
  haveI : Fact p.Prime := ⟨hp⟩
  intro n
  induction n using Nat.strong_induction_on with
  | _ n ih =>
    intro hn k
    rw [natValLoop, dif_pos ⟨hp.two_le, hn⟩]
    split
    · rename_i h0
      have hd : p ∣ n := Nat.dvd_of_mod_eq_zero h0
      have h1 : n / p < n := Nat.div_lt_self hn hp.one_lt
      have h2 : 0 < n / p := Nat.div_pos (Nat.le_of_dvd hn hd) hp.pos
      rw [ih _ h1 h2, padicValNat.div hd]
      have : 1 ≤ padicValNat p n := one_le_padicValNat_of_dvd hn.ne' hd
      omega
    · rename_i h0
      rw [padicValNat.eq_zero_of_not_dvd (fun hd => h0 (Nat.mod_eq_zero_of_dvd hd))]
      rfl

theorem natVal_zero (p : ℕ) : natVal p 0 = .infinity := rfl

theorem natVal_eq {p n : ℕ} (hp : p.Prime) (hn : n ≠ 0) : natVal p n = .finite (padicValNat p n) := by
  rw [natVal, if_neg hn, natValLoop_eq hp n (Nat.pos_of_ne_zero hn), Nat.zero_add]

theorem intVal_zero (p : ℕ) : intVal p 0 = .infinity := rfl

theorem intVal_eq {p : ℕ} {n : ℤ} (hp : p.Prime) (hn : n ≠ 0) : intVal p n = .finite (padicValInt p n) := by
  rw [intVal, natVal_eq hp (Int.natAbs_ne_zero.2 hn)]; rfl

theorem ratVal_zero (p : ℕ) : ratVal p 0 = some .infinity := rfl

theorem ratVal_eq {p : ℕ} {q : ℚ} (hp : p.Prime) (hq : q ≠ 0) : ratVal p q = some (.finite (padicValRat p q)) := by
  rw [ratVal, natVal_eq hp (Int.natAbs_ne_zero.2 (Rat.num_ne_zero.2 hq))]
  simp only [natVal_eq hp q.den_ne_zero, Valu.unwrapInt, Option.map_some]
  rfl

section
variable {p : ℕ} [hp : Fact p.Prime]

theorem p_pos : (0 : ℝ) < p := by exact_mod_cast hp.out.pos
theorem p_one : (1 : ℝ) < p := by exact_mod_cast hp.out.one_lt

theorem norm_rat {q : ℚ} (hq : q ≠ 0) : ‖(q : ℚ_[p])‖ = (p : ℝ) ^ (-padicValRat p q) := by
  rw [Padic.eq_padicNorm, padicNorm.eq_zpow_of_nonzero hq]; push_cast; rfl

theorem ratVal_norm (q : ℚ) : ∃ w, ratVal p q = some w ∧ w.norm p = ‖(q : ℚ_[p])‖ := by
  by_cases hq : q = 0
  · subst hq; exact ⟨_, ratVal_zero p, by simp [Valu.norm]⟩
  · exact ⟨_, ratVal_eq hp.out hq, by rw [norm_rat hq]; rfl⟩

theorem intVal_norm (n : ℤ) : (intVal p n).norm p = ‖(n : ℚ_[p])‖ := by
  by_cases hq : n = 0
  · subst hq; simp [intVal_zero, Valu.norm]
  · rw [intVal_eq hp.out hq]
    have h := norm_rat (p := p) (q := n) (by exact_mod_cast hq)
    rw [padicValRat.of_int] at h
    rw [Valu.norm, ← h, Rat.cast_intCast]

theorem Valu.norm_nonneg (w : Valu) : 0 ≤ w.norm p := by
  cases w with
  | infinity => exact le_rfl
  | finite v => exact (zpow_pos p_pos _).le

theorem Valu.le_iff (a b : Valu) : a.le b = true ↔ b.norm p ≤ a.norm p := by
  cases a with
  | infinity =>
    cases b with
    | infinity => simp [Valu.le, Valu.cmp, Valu.norm]
    | finite v => simpa [Valu.le, Valu.cmp, Valu.norm] using zpow_pos (p_pos (p := p)) _
  | finite u =>
    cases b with
    | infinity => simpa [Valu.le, Valu.cmp, Valu.norm] using (zpow_pos (p_pos (p := p)) _).le
    | finite v =>
      simp only [Valu.le, Valu.cmp, Valu.norm]
      rw [zpow_le_zpow_iff_right₀ p_one, neg_le_neg_iff]
      rw [bne_iff_ne, ne_eq, compare_gt_iff_gt, not_lt]

theorem Valu.lt_iff (a b : Valu) : a.lt b = true ↔ b.norm p < a.norm p := by
  cases a with
  | infinity =>
    cases b with
    | infinity => simp [Valu.lt, Valu.cmp, Valu.norm]
    | finite v => simpa [Valu.lt, Valu.cmp, Valu.norm] using (zpow_pos (p_pos (p := p)) _).le
  | finite u =>
    cases b with
    | infinity => simpa [Valu.lt, Valu.cmp, Valu.norm] using (zpow_pos (p_pos (p := p)) _)
    | finite v =>
      simp only [Valu.lt, Valu.cmp, Valu.norm]
      rw [zpow_lt_zpow_iff_right₀ p_one, neg_lt_neg_iff]
      rw [beq_iff_eq, compare_lt_iff_lt]

theorem le_intVal (k : ℤ) (n : ℤ) : (Valu.finite k).le (intVal p n) = true ↔ ‖(n : ℚ_[p])‖ ≤ (p : ℝ) ^ (-k) := by
  rw [Valu.le_iff (p := p), intVal_norm]; rfl

theorem lt_intVal (k : ℤ) (n : ℤ) : (Valu.finite k).lt (intVal p n) = true ↔ ‖(n : ℚ_[p])‖ < (p : ℝ) ^ (-k) := by
  rw [Valu.lt_iff (p := p), intVal_norm]; rfl

theorem intVal_lt (k : ℤ) (n : ℤ) : (intVal p n).lt (Valu.finite k) = true ↔ (p : ℝ) ^ (-k) < ‖(n : ℚ_[p])‖ := by
  rw [Valu.lt_iff (p := p), intVal_norm]; rfl

/-- a nonzero `p`-adic number has a power of `p` as its absolute value -/
theorem norm_zpow {x : ℚ_[p]} (hx : x ≠ 0) : ‖x‖ = (p : ℝ) ^ (-x.valuation) := Padic.norm_eq_zpow_neg_valuation hx

theorem norm_lt_iff_le (x : ℚ_[p]) (k : ℤ) : ‖x‖ < (p : ℝ) ^ (-k) ↔ ‖x‖ ≤ (p : ℝ) ^ (-(k + 1)) := by
  rw [Padic.norm_le_pow_iff_norm_lt_pow_add_one]
  simp

theorem norm_p_zpow (k : ℤ) : ‖((p : ℚ_[p]) ^ k)‖ = (p : ℝ) ^ (-k) := _root_.Padic.norm_p_zpow k

theorem add_le {x y : ℚ_[p]} {r : ℝ} (h1 : ‖x‖ ≤ r) (h2 : ‖y‖ ≤ r) : ‖x + y‖ ≤ r :=
  (Padic.nonarchimedean x y).trans (max_le h1 h2)

theorem sub_le {x y : ℚ_[p]} {r : ℝ} (h1 : ‖x‖ ≤ r) (h2 : ‖y‖ ≤ r) : ‖x - y‖ ≤ r := by
  rw [sub_eq_add_neg]; exact add_le h1 (by rwa [norm_neg])

/-- of two numbers whose difference is smaller than one of them the absolute values agree -/
theorem norm_eq_of_close {x y : ℚ_[p]} (h : ‖x - y‖ < ‖y‖) : ‖x‖ = ‖y‖ := by
  have h2 : ‖x - y + y‖ = max ‖x - y‖ ‖y‖ := Padic.add_eq_max_of_ne h.ne
  rwa [sub_add_cancel, max_eq_right h.le] at h2

end

end Verif.Padic
