import Verif.Proofs.AksMain

/-!
# The tests of the AKS primality test always return, and how debug builds differ
-/

namespace Verif.Aks

open Verif.Natural Verif.Props.Natural

theorem aksShrink_total (lhs : ℕ → ℕ) (rhs : ℕ) (k : ℕ) : ∀ s, 2 ^ (k + 1) ≤ s + 1 → ∃ t, aksShrink lhs rhs k s = some t := by
  induction k with
  | zero =>
    intro s h
    rw [aksShrink]
    simp only [zero_add, pow_one] at h
    rw [if_neg (by simp; omega)]
    split
    · exact ⟨s, rfl⟩
    split
    · exact ⟨s, rfl⟩
    · exact ⟨_, rfl⟩
  | succ k ih =>
    intro s h
    rw [aksShrink, if_neg (by rw [pow_succ 2 (k + 1)] at h; have := Nat.two_pow_pos (k + 1); omega)]
    have h2 : 2 ^ (k + 1) ≤ s + 1 := by rw [pow_succ 2 (k + 1)] at h; omega
    split
    · exact ih s h2
    split
    · exact ⟨s, rfl⟩
    · exact ih _ (by rw [pow_succ 2 (k + 1)] at h; omega)

theorem aksGrow_total (lhs : ℕ → ℕ) (rhs : ℕ) (h1 : lhs 1 ≤ rhs) (d : ℕ) : ∀ k s, s + 1 = 2 ^ k → (∃ m, k ≤ m ∧ m < k + d ∧ rhs ≤ lhs (2 ^ (m + 1) - 1)) →
    ∃ t, aksGrow lhs rhs k s = some t := by
  induction d with
  | zero => rintro k s - ⟨m, h1, h2, -⟩; omega
  | succ d ih =>
    rintro k s hs ⟨m, m1, m2, m3⟩
    rw [aksGrow]
    have hs' : s + 2 ^ k + 1 = 2 ^ (k + 1) := by rw [pow_succ]; omega
    split
    · rename_i hlt
      refine ih (k + 1) _ hs' ⟨m, ?_, by omega, m3⟩
      by_contra hc
      have e : m = k := by omega
      subst e
      rw [← hs', Nat.add_sub_cancel] at m3
      omega
    · split
      · exact ⟨_, rfl⟩
      · rename_i h2 h3
        have hk : k ≠ 0 := by
          rintro rfl
          simp only [pow_zero] at hs h2 h3
          have : s = 0 := by omega
          subst this
          simp only [zero_add] at h2 h3
          omega
        rw [if_neg hk]
        refine aksShrink_total lhs rhs _ _ ?_
        rw [Nat.sub_add_cancel (by omega)]
        omega

theorem choose_ge {n i : ℕ} (hi : 1 ≤ i) (hn : i ≤ n) : n - i + 1 ≤ n.choose i := by
  obtain ⟨m, rfl⟩ := Nat.exists_eq_add_of_le hn
  rw [Nat.add_sub_cancel_left, Nat.choose_symm_add]
  calc m + 1 = (m + 1).choose m := by rw [Nat.choose_succ_self_right]
    _ ≤ (i + m).choose m := Nat.choose_le_choose m (by omega)

theorem aksLhs_ge {phi d i j s : ℕ} (hi : 1 ≤ i) (hid : i ≤ d) (hj : j ≤ phi - 1 - d) (hs : i + j ≤ 2 * s) : 2 * s - i + 1 ≤ aksLhs phi d i j s := by
  unfold aksLhs
  simp only
  rw [if_neg (by omega), choose_eq, choose_eq, choose_eq, choose_eq]
  have h1 := choose_ge hi (show i ≤ 2 * s by omega)
  have h2 := Nat.choose_pos hid
  have h3 := Nat.choose_pos (show j ≤ 2 * s - i by omega)
  have h4 := Nat.choose_pos hj
  calc 2 * s - i + 1 ≤ (2 * s).choose i := h1
    _ ≤ _ := by
      rw [mul_assoc, mul_assoc]
      exact Nat.le_mul_of_pos_right _ (Nat.mul_pos h2 (Nat.mul_pos h3 h4))

/-- The search for `s` ends. -/
theorem aksS_total {n r : ℕ} (hn : 4 ≤ n) (hr : 3 ≤ r) (hr4 : r ≠ 4) : ∃ s, aksS false n r = some s := by
  unfold aksS
  generalize hpar : aksParams r = par
  obtain ⟨phi, d, i, j⟩ := par
  simp only [aksParams, Prod.mk.injEq] at hpar
  obtain ⟨h1, h2, h3, h4⟩ := hpar
  obtain ⟨M, hM, hM1⟩ := C28_root_ceil (phi / 3) 2 (by omega)
  simp only [hM, Option.bind_eq_bind, Option.bind_some, Bool.false_and, Bool.false_eq_true, if_false]
  have hM0 : 5 ≤ r → 1 ≤ M := by
    intro h5
    rcases Nat.eq_zero_or_pos M with h0 | h0
    · subst h0
      have : phi / 3 ≤ 0 ^ 2 := hM1.1
      simp only [ne_eq, OfNat.ofNat_ne_zero, not_false_eq_true, zero_pow] at this
      omega
    · exact h0
  have key : ∃ t, aksGrow (aksLhs phi d i j) (Verif.Natural.pow n M) 0 0 = some t := by
    rw [Verif.Natural.pow_eq]
    rcases Nat.lt_or_ge r 5 with hr5 | hr5
    · have hr3 : r = 3 := by omega
      subst hr3
      have hphi : phi = 2 := by omega
      have hd : d = 1 := by omega
      have hi : i = 0 := by rw [← h3]; simp
      have hj : j = 0 := by rw [← h4]; simp
      have hM' : M = 0 := by
        have := hM1.2 (show phi / 3 ≤ 0 ^ 2 by simp; omega)
        omega
      subst hphi hd hi hj hM'
      refine ⟨1, ?_⟩
      rw [aksGrow]
      simp [aksLhs, choose_eq]
    · have hi : 1 ≤ i := by split at h3 <;> omega
      have hid : i ≤ d := by split at h3 <;> omega
      have hj : j ≤ phi - 1 - d := by split at h4 <;> omega
      have hone : aksLhs phi d i j 1 ≤ n ^ M := by
        rcases Nat.eq_or_lt_of_le hr5 with h5 | h5
        · have hphi : phi = 4 := by omega
          have hn1 : n ≤ n ^ M := Nat.le_self_pow (by have := hM0 hr5; omega) n
          have hd : d = 2 := by omega
          subst hphi hd
          have hi' : i = 1 := by split at h3 <;> omega
          have hj' : j = 1 := by split at h4 <;> omega
          subst hi' hj'
          have : aksLhs 4 2 1 1 1 = 4 := by simp [aksLhs, choose_eq]
          omega
        · have hi2 : 2 ≤ i := by split at h3 <;> omega
          have hj1 : 1 ≤ j := by split at h4 <;> omega
          have : aksLhs phi d i j 1 = 0 := by
            unfold aksLhs
            simp only
            split
            · rfl
            · rw [choose_eq, choose_eq, choose_eq, choose_eq, Nat.choose_eq_zero_of_lt (show 2 * 1 - i < j by omega)]
              simp
          omega
      refine aksGrow_total _ _ hone (n ^ M + i + j + 1) 0 0 rfl ⟨n ^ M + i + j, by omega, by omega, ?_⟩
      have hp := Nat.lt_two_pow_self (n := n ^ M + i + j)
      refine le_trans ?_ (aksLhs_ge hi hid hj ?_)
      · rw [pow_succ]; omega
      · rw [pow_succ]; omega
  obtain ⟨t, ht⟩ := key
  exact ⟨t, by rw [ht]; rfl⟩

/-- In debug builds the value of `s` is the same, or the assertion that it is minimal fails. -/
theorem aksS_debug (n r : ℕ) : aksS true n r = aksS false n r ∨ aksS true n r = none := by
  unfold aksS
  simp only [Bool.false_and, Bool.false_eq_true, if_false]
  cases nthRootCeil ((aksParams r).1 / 3) 2 with
  | none => exact Or.inl rfl
  | some M =>
    simp only [Option.bind_eq_bind, Option.bind_some]
    cases aksGrow (aksLhs (aksParams r).1 (aksParams r).2.1 (aksParams r).2.2.1 (aksParams r).2.2.2) (Verif.Natural.pow n M) 0 0 with
    | none => exact Or.inl rfl
    | some s =>
      simp only [Option.bind_some]
      split
      · exact Or.inr rfl
      · exact Or.inl rfl

theorem aksIdentities_total {n r : ℕ} (hn : 2 ≤ n) (hr : 2 ≤ r) (hnr : n % r ≠ 0) (l : List ℕ) (hl : ∀ b ∈ l, b < n) :
    ∃ ok, ∀ dbg, aksIdentities dbg n r (aksSize n r) l = some ok := by
  induction l with
  | nil => exact ⟨true, fun _ => rfl⟩
  | cons b t ih =>
    obtain ⟨ok, h⟩ := ih fun c hc => hl c (by simp [hc])
    obtain ⟨c, -, hc⟩ := aksIdentity_eq (fits hn hr) hn hr (hl b (by simp)) hnr
    by_cases hok : ∀ i < r, c i = if i = n % r then 1 else if i = 0 then b else 0
    · refine ⟨ok, fun dbg => ?_⟩
      rw [aksIdentities, hc dbg, Option.bind_eq_bind, Option.bind_some, if_pos (by simpa using hok)]
      exact h dbg
    · refine ⟨false, fun dbg => ?_⟩
      rw [aksIdentities, hc dbg, Option.bind_eq_bind, Option.bind_some, if_neg (by simpa using hok)]

/-- All that debug builds add after the value of `s` is known never fails, and release builds always return. -/
theorem aksTests_total {n r : ℕ} (hn : 4 ≤ n) (hr : 3 ≤ r) (hr4 : r ≠ 4) (hr64 : r < 2 ^ 64) (hnr : n % r ≠ 0) :
    ∃ s a, aksS false n r = some s ∧ ∀ dbg, aksS dbg n r = some s → aksTests dbg n r = some a := by
  obtain ⟨s, hs⟩ := aksS_total hn hr hr4
  refine ⟨s, ?_⟩
  suffices h : ∃ a, ∀ dbg, aksS dbg n r = some s → aksTests dbg n r = some a by
    obtain ⟨a, ha⟩ := h
    exact ⟨a, hs, ha⟩
  have c1 := (aksGcds_spec (show 2 ≤ n by omega) (aksSet s)).1
  cases e1 : aksGcds n (aksSet s) with
  | some a => exact ⟨a, fun dbg h => by simp [aksTests, h, e1]⟩
  | none =>
  cases e2 : aksGcds n (aksProducts (aksSet s)) with
  | some a => exact ⟨a, fun dbg h => by simp [aksTests, h, e1, e2]⟩
  | none =>
  cases e3 : aksGcds n (aksDifferences (aksSet s)) with
  | some a => exact ⟨a, fun dbg h => by simp [aksTests, h, e1, e2, e3]⟩
  | none =>
  by_cases e4 : (aksSet s).any (aksFermat n)
  · exact ⟨.composite, fun dbg h => by simp only [aksTests, h, e1, e2, e3, e4, Option.bind_eq_bind, Option.bind_some, if_true]⟩
  · have hlt : s + 1 < n := by
      by_contra hc
      have := c1 e1 n (mem_aksSet.2 ⟨by omega, by omega⟩)
      rw [Nat.coprime_self] at this
      omega
    obtain ⟨ok, hok⟩ := aksIdentities_total (show 2 ≤ n by omega) (show 2 ≤ r by omega) hnr (aksSet s) fun b hb => by have := (mem_aksSet.1 hb).2; omega
    refine ⟨if ok then .prime else .composite, fun dbg h => ?_⟩
    simp only [aksTests, h, e1, e2, e3, e4, hok dbg, Option.bind_eq_bind, Option.bind_some, if_neg (not_le.2 hr64), Bool.false_eq_true, if_false]
    cases ok <;> rfl

end Verif.Aks
