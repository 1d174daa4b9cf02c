import Verif.Proofs.PadicVal
import Verif.Proofs.RealIso

/-!
# Truncation of rational numbers
-/

namespace Verif.Padic

open Polynomial Verif.Rings Verif.RealRoots

section
variable {p : ℕ} [hp : Fact p.Prime]

theorem norm_int_lt_one {n : ℤ} : ‖(n : ℚ_[p])‖ < 1 ↔ (p : ℤ) ∣ n := _root_.Padic.norm_intCast_lt_one_iff

theorem norm_int_eq_one {n : ℤ} : ‖(n : ℚ_[p])‖ = 1 ↔ ¬ (p : ℤ) ∣ n := by
  rw [← norm_int_lt_one, not_lt]
  exact ⟨fun h => h.ge, fun h => le_antisymm (_root_.Padic.norm_int_le_one n) h⟩

theorem num_den_unit {r : ℚ} (h : ‖(r : ℚ_[p])‖ = 1) : ¬ (p : ℤ) ∣ r.num ∧ ¬ (p : ℤ) ∣ (r.den : ℤ) := by
  have h1 : (r : ℚ_[p]) * ((r.den : ℤ) : ℚ_[p]) = (r.num : ℚ_[p]) := by
    have := Rat.mul_den_eq_num r
    exact_mod_cast congrArg (fun z : ℚ => (z : ℚ_[p])) this
  have h2 : ‖((r.den : ℤ) : ℚ_[p])‖ = ‖(r.num : ℚ_[p])‖ := by rw [← h1, norm_mul, h, one_mul]
  have h3 : (p : ℤ) ∣ r.num ↔ (p : ℤ) ∣ (r.den : ℤ) := by rw [← norm_int_lt_one (p := p), ← norm_int_lt_one (p := p), h2]
  have h4 : ¬ (p : ℤ) ∣ r.num := fun hd => by
    have hd2 := h3.1 hd
    have := Nat.dvd_gcd (Int.natCast_dvd.1 hd) (Int.natCast_dvd_natCast.1 hd2)
    rw [r.reduced] at this
    exact hp.out.one_lt.ne' (Nat.dvd_one.1 this)
  exact ⟨h4, fun hd => h4 (h3.2 hd)⟩

theorem intVal_unit {n : ℤ} (h : ¬ (p : ℤ) ∣ n) : intVal p n = .finite 0 := by
  have h0 : n ≠ 0 := fun e => h (e ▸ dvd_zero _)
  rw [intVal_eq hp.out h0, padicValInt.eq_zero_of_not_dvd h]; rfl

theorem ratTruncate_spec (q : ℚ) (c : ℤ) : ∃ t, ratTruncate p q c = some t ∧ t.Of p (q : ℚ_[p]) c := by
  by_cases hq : q = 0
  · subst hq
    exact ⟨.zero, rfl, by simpa [Trunc.Of] using (zpow_pos (p_pos (p := p)) _).le⟩
  have hp0 : (p : ℚ) ≠ 0 := by exact_mod_cast hp.out.ne_zero
  have hpp : (p : ℚ_[p]) ≠ 0 := by exact_mod_cast hp.out.ne_zero
  set s := padicValRat p q with hs
  have hnq : ‖(q : ℚ_[p])‖ = (p : ℝ) ^ (-s) := norm_rat hq
  rw [ratTruncate, ratVal_eq hp.out hq]
  simp only [Option.bind_eq_bind, Option.bind_some]
  rw [← hs, truncNonZero]
  set r := q * (p : ℚ) ^ (-s) with hr
  have hrc : (r : ℚ_[p]) = (q : ℚ_[p]) * (p : ℚ_[p]) ^ (-s) := by rw [hr]; push_cast; rfl
  have hrn : ‖(r : ℚ_[p])‖ = 1 := by
    rw [hrc, norm_mul, hnq, norm_p_zpow, neg_neg, ← zpow_add₀ p_pos.ne', neg_add_cancel, zpow_zero]
  obtain ⟨hn, hd⟩ := num_den_unit hrn
  have hqr : (q : ℚ_[p]) = (r : ℚ_[p]) * (p : ℚ_[p]) ^ s := by
    rw [hrc, mul_assoc, ← zpow_add₀ hpp, neg_add_cancel, zpow_zero, mul_one]
  simp only [ratNumerator_eq, ratDenominator, intVal_unit hn, intVal_unit hd, Valu.unwrapNat, lt_self_iff_false, if_false, Int.natAbs_zero,
    beq_self_eq_true, assertThat, if_true, Option.bind_some, Option.bind_eq_bind]
  split
  · rename_i hc
    refine ⟨.zero, rfl, ?_⟩
    rw [Trunc.Of, hnq]
    exact zpow_le_zpow_right₀ p_one.le (by omega)
  · rename_i hc
    set n := (c - s).natAbs with hnn
    have hnc : s + (n : ℤ) = c := by omega
    have hn0 : 0 < n := by omega
    have hpn : (0 : ℤ) < (p : ℤ) ^ n := pow_pos (by exact_mod_cast hp.out.pos) _
    have hpdvd : (p : ℤ) ∣ (p : ℤ) ^ n := dvd_pow_self _ hn0.ne'
    obtain ⟨g, x, y, e1, e2, e3, e4⟩ := intOps_models.euclideanXgcd ((p : ℤ) ^ n) (r.den : ℤ)
    simp only [id] at e2 e3 e4
    have hg1 : g = 1 := by
      have hgd : g ∣ (p : ℤ) ^ n := e3.1 _ (by simp)
      have hgd2 : g ∣ (r.den : ℤ) := e3.1 _ (by simp)
      have hcop : IsCoprime ((p : ℤ) ^ n) (r.den : ℤ) :=
        ((Nat.prime_iff_prime_int.1 hp.out).coprime_iff_not_dvd.2 hd).pow_left
      have hu : IsUnit g := hcop.isUnit_of_dvd' hgd hgd2
      rcases Int.isUnit_iff.1 hu with h | h
      · exact h
      · exfalso
        rw [h] at e4
        have := e4 (-1) (-1) 1 rfl (by decide)
        exact absurd this (by decide)
    subst hg1
    rw [e1]
    simp only [Option.bind_some, beq_self_eq_true, if_true]
    have hrem : intOps.rem (r.num * y) ((p : ℤ) ^ n) = some ((r.num * y) % (p : ℤ) ^ n) := by
      rw [EucOps.rem]
      have hz : ¬ intOps.isZero ((p : ℤ) ^ n) = true := by
        rw [intOps_models.toSemi.isZero]; exact hpn.ne'
      rw [if_neg hz]
      simp [intOps, intQuorem, hpn.ne', Int.fmod_eq_emod_of_nonneg _ hpn.le, hp.out.ne_zero]
    rw [hrem]
    set w := (r.num * y) % (p : ℤ) ^ n with hw
    have hw1 : 0 ≤ w := Int.emod_nonneg _ hpn.ne'
    have hw2 : w < (p : ℤ) ^ n := Int.emod_lt_of_pos _ hpn
    have hwd : (p : ℤ) ^ n ∣ r.num * y - w := Int.dvd_self_sub_emod
    have hny : ¬ (p : ℤ) ∣ r.num * y := fun h => by
      rcases (Nat.prime_iff_prime_int.1 hp.out).dvd_or_dvd h with h | h
      · exact hn h
      · have : (p : ℤ) ∣ 1 := by rw [e2]; exact dvd_add (Dvd.dvd.mul_left hpdvd _) (Dvd.dvd.mul_right h _)
        exact hp.out.one_lt.ne' (by exact_mod_cast Int.eq_one_of_dvd_one (by positivity) this)
    have hwp : ¬ (p : ℤ) ∣ w := fun h => hny (by
      have := dvd_add h (hpdvd.trans hwd)
      rwa [add_sub_cancel] at this)
    have hw0 : 0 < w := lt_of_le_of_ne hw1 fun e => hwp (e ▸ dvd_zero _)
    refine ⟨.nonZero w.natAbs s n, by simp [hw0], hn0, hnc, fun h => hwp (Int.natCast_dvd.2 h), ?_, ?_⟩
    · have : ((w.natAbs : ℕ) : ℤ) < ((p ^ n : ℕ) : ℤ) := by rw [Int.natAbs_of_nonneg hw1]; exact_mod_cast hw2
      exact_mod_cast this
    · have hwc : ((w.natAbs : ℕ) : ℚ_[p]) = (w : ℚ_[p]) := by
        have : ((w.natAbs : ℕ) : ℤ) = w := Int.natAbs_of_nonneg hw1
        rw [← Int.cast_natCast, this]
      rw [hqr, hwc, ← sub_mul, norm_mul, norm_p_zpow]
      have hmain : ‖(r : ℚ_[p]) - (w : ℚ_[p])‖ ≤ (p : ℝ) ^ (-(n : ℤ)) := by
        have h1 : ‖((r.num * y - w : ℤ) : ℚ_[p])‖ ≤ (p : ℝ) ^ (-(n : ℤ)) := by
          rw [_root_.Padic.norm_int_le_pow_iff_dvd]; exact_mod_cast hwd
        have hden : ‖((r.den : ℤ) : ℚ_[p])‖ = 1 := norm_int_eq_one.2 hd
        have h2 : ((r : ℚ_[p]) - ((r.num * y : ℤ) : ℚ_[p])) * ((r.den : ℤ) : ℚ_[p]) = ((r.num * x * (p : ℤ) ^ n : ℤ) : ℚ_[p]) := by
          have h3 : (r : ℚ_[p]) * ((r.den : ℤ) : ℚ_[p]) = (r.num : ℚ_[p]) := by
            have := Rat.mul_den_eq_num r
            exact_mod_cast congrArg (fun z : ℚ => (z : ℚ_[p])) this
          have h4 : ((1 : ℤ) : ℚ_[p]) = ((x * (p : ℤ) ^ n + y * (r.den : ℤ) : ℤ) : ℚ_[p]) := by rw [← e2]
          push_cast at h3 h4 ⊢
          linear_combination h3 + (r.num : ℚ_[p]) * h4
        have h5 : ‖(r : ℚ_[p]) - ((r.num * y : ℤ) : ℚ_[p])‖ ≤ (p : ℝ) ^ (-(n : ℤ)) := by
          have h6 : ‖(r : ℚ_[p]) - ((r.num * y : ℤ) : ℚ_[p])‖ = ‖((r.num * x * (p : ℤ) ^ n : ℤ) : ℚ_[p])‖ := by
            rw [← h2, norm_mul, hden, mul_one]
          rw [h6, _root_.Padic.norm_int_le_pow_iff_dvd]
          push_cast
          exact Dvd.intro_left _ rfl
        have h7 : (r : ℚ_[p]) - (w : ℚ_[p]) = ((r : ℚ_[p]) - ((r.num * y : ℤ) : ℚ_[p])) + ((r.num * y - w : ℤ) : ℚ_[p]) := by
          push_cast; ring
        rw [h7]; exact add_le h5 h1
      calc _ ≤ (p : ℝ) ^ (-(n : ℤ)) * (p : ℝ) ^ (-s) := mul_le_mul_of_nonneg_right hmain (zpow_pos p_pos _).le
        _ = (p : ℝ) ^ (-c) := by rw [← zpow_add₀ p_pos.ne']; congr 1; omega

theorem Trunc.Of.close {t : Trunc} {q : ℚ_[p]} {c : ℤ} (h : t.Of p q c) : ‖q - (t.rationalValue p : ℚ_[p])‖ ≤ (p : ℝ) ^ (-c) := by
  cases t with
  | zero => simpa [Trunc.Of, Trunc.rationalValue] using h
  | nonZero a s n =>
    have := h.2.2.2.2
    simpa [Trunc.rationalValue] using this

/-- truncations that agree modulo `p ^ c` are equal -/
theorem Trunc.Of.unique {t u : Trunc} {q q' : ℚ_[p]} {c : ℤ} (h : t.Of p q c) (h' : u.Of p q' c) (hqq : ‖q - q'‖ ≤ (p : ℝ) ^ (-c)) : t = u := by
  have hnorm : ∀ {a : ℕ} {s : ℤ} {n : ℕ} {z : ℚ_[p]}, Trunc.Of p (.nonZero a s n) z c → ‖z‖ = (p : ℝ) ^ (-s) := by
    rintro a s n z ⟨h1, h2, h3, h4, h5⟩
    have ha : ‖(a : ℚ_[p])‖ = 1 := by
      have := (norm_int_eq_one (p := p) (n := (a : ℤ))).2 (fun hd => h3 (Int.natCast_dvd_natCast.1 hd))
      exact_mod_cast this
    have hy : ‖(a : ℚ_[p]) * (p : ℚ_[p]) ^ s‖ = (p : ℝ) ^ (-s) := by rw [norm_mul, ha, one_mul, norm_p_zpow]
    rw [← hy]
    apply norm_eq_of_close
    rw [hy]
    exact h5.trans_lt (zpow_lt_zpow_right₀ p_one (by omega))
  have hbig : ∀ {a : ℕ} {s : ℤ} {n : ℕ} {z : ℚ_[p]}, Trunc.Of p (.nonZero a s n) z c → (p : ℝ) ^ (-c) < ‖z‖ := by
    intro a s n z hz
    rw [hnorm hz]
    exact zpow_lt_zpow_right₀ p_one (by have := hz.1; have := hz.2.1; omega)
  cases t with
  | zero =>
    cases u with
    | zero => rfl
    | nonZero b s n =>
      exfalso
      have h1 : ‖q'‖ ≤ (p : ℝ) ^ (-c) := by
        have : q' = q - (q - q') := by ring
        rw [this]; exact sub_le h hqq
      exact absurd (hbig h') (not_lt.2 h1)
  | nonZero a s n =>
    cases u with
    | zero =>
      exfalso
      have h1 : ‖q‖ ≤ (p : ℝ) ^ (-c) := by
        have : q = q' + (q - q') := by ring
        rw [this]; exact add_le h' hqq
      exact absurd (hbig h) (not_lt.2 h1)
    | nonZero b s' n' =>
      have hs : s = s' := by
        have h1 : ‖q‖ = ‖q'‖ := norm_eq_of_close (hqq.trans_lt (hbig h'))
        rw [hnorm h, hnorm h'] at h1
        have := zpow_right_injective₀ p_pos p_one.ne' h1
        simpa using this
      subst hs
      have hn : n = n' := by have := h.2.1; have := h'.2.1; omega
      subst hn
      have h1 : ‖((a : ℚ_[p]) - (b : ℚ_[p])) * (p : ℚ_[p]) ^ s‖ ≤ (p : ℝ) ^ (-c) := by
        have e : ((a : ℚ_[p]) - (b : ℚ_[p])) * (p : ℚ_[p]) ^ s =
            ((q - q') + (q' - (b : ℚ_[p]) * (p : ℚ_[p]) ^ s)) - (q - (a : ℚ_[p]) * (p : ℚ_[p]) ^ s) := by ring
        rw [e]; exact sub_le (add_le hqq h'.2.2.2.2) h.2.2.2.2
      have h2 : ‖(((a : ℤ) - (b : ℤ) : ℤ) : ℚ_[p])‖ ≤ (p : ℝ) ^ (-(n : ℤ)) := by
        rw [norm_mul, norm_p_zpow] at h1
        have h3 : (p : ℝ) ^ (-c) = (p : ℝ) ^ (-(n : ℤ)) * (p : ℝ) ^ (-s) := by
          rw [← zpow_add₀ p_pos.ne']; congr 1; have := h.2.1; omega
        rw [h3] at h1
        have := le_of_mul_le_mul_right h1 (zpow_pos p_pos _)
        push_cast; exact this
      rw [_root_.Padic.norm_int_le_pow_iff_dvd] at h2
      have h4 : (a : ℤ) ≡ b [ZMOD ((p ^ n : ℕ) : ℤ)] := (Int.modEq_iff_dvd.2 (by
        have := (dvd_neg.2 h2); rw [neg_sub] at this; exact_mod_cast this))
      have h5 := Nat.ModEq.eq_of_lt_of_lt (Int.natCast_modEq_iff.1 h4) h.2.2.2.1 h'.2.2.2.1
      rw [h5]

end

end Verif.Padic
