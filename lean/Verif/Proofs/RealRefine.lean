import Verif.Proofs.RealRoots

/-!
# Refinement of isolating intervals
-/

namespace Verif.RealRoots

open Polynomial Verif.Rings

theorem middleThird_spec {s : ℚ → ℚ → ℚ} (hs : SimplestOk s) {a b : ℚ} (h : a < b) :
    ∃ m, middleThird s a b (1 / 3) = some m ∧ a + (b - a) / 3 < m ∧ m < b - (b - a) / 3 := by
  unfold middleThird
  have h1 : a + ((b - a) - (b - a) * (1 / 3)) / 2 < b - ((b - a) - (b - a) * (1 / 3)) / 2 := by linarith
  have h2 := hs _ _ h1
  refine ⟨s (a + ((b - a) - (b - a) * (1 / 3)) / 2) (b - ((b - a) - (b - a) * (1 / 3)) / 2), ?_, ?_, ?_⟩
  · simp only [decide_eq_true h, decide_eq_true h1, assertThat, if_true, Option.bind_eq_bind, Option.bind_some]
    norm_num
  · linarith [h2.1]
  · linarith [h2.2]

theorem RootIv.refine_spec {s : ℚ → ℚ → ℚ} (hs : SimplestOk s) {p : List Int} {i : RootIv} {r : ℝ} (h : i.Isolates (rv p) r) :
    ∃ j, i.refine s p = some j ∧ j.Isolates (rv p) r ∧ i.lo ≤ j.lo ∧ j.hi ≤ i.hi ∧ 3 * (j.hi - j.lo) ≤ 2 * (i.hi - i.lo) := by
  cases i with
  | rational a => exact ⟨_, rfl, h, le_refl _, le_refl _, by simp [RootIv.hi, RootIv.lo]⟩
  | real a b d =>
    obtain ⟨h1, h2, h3, h4, h5⟩ := h
    have hab : a < b := by exact_mod_cast h1.trans h2
    obtain ⟨m, m1, m2, m3⟩ := middleThird_spec hs hab
    have ham : a < m := by linarith
    have hmb : m < b := by linarith
    have ham' : (a : ℝ) < m := by exact_mod_cast ham
    have hmb' : (m : ℝ) < b := by exact_mod_cast hmb
    have key : ∀ {x y : ℝ}, x ≤ y → (a : ℝ) ≤ x → y ≤ b → (rv p).eval x * (rv p).eval y < 0 → x < r ∧ r < y := by
      intro x y hxy hx hy hm
      obtain ⟨t, t1, t2, t3⟩ := exists_root_of_sign hxy hm
      rw [← h4 t (by linarith) (by linarith) t3]
      exact ⟨t1, t2⟩
    simp only [RootIv.refine, m1, Option.bind_eq_bind, Option.bind_some]
    rcases lt_trichotomy (evalAtRat p m) 0 with e | e | e
    · rw [if_pos e]
      rw [evalAtRat_neg] at e
      cases d with
      | true =>
        simp only [if_true] at h5
        have := key hmb'.le ham'.le (le_refl _) (mul_neg_of_neg_of_pos e h5.2)
        exact ⟨_, rfl, ⟨this.1, this.2, h3, fun x x1 x2 => h4 x (by linarith) x2, e, h5.2⟩, ham.le, le_refl _, by simp only [RootIv.hi, RootIv.lo, if_true, Bool.false_eq_true, if_false]; linarith⟩
      | false =>
        simp only [Bool.false_eq_true, if_false] at h5
        have := key ham'.le (le_refl _) hmb'.le (mul_neg_of_pos_of_neg h5.1 e)
        exact ⟨_, rfl, ⟨this.1, this.2, h3, fun x x1 x2 => h4 x x1 (by linarith), h5.1, e⟩, le_refl _, hmb.le, by simp only [RootIv.hi, RootIv.lo, if_true, Bool.false_eq_true, if_false]; linarith⟩
    · rw [if_neg (by rw [e]; exact lt_irrefl _), if_pos e]
      rw [evalAtRat_zero] at e
      exact ⟨_, rfl, ⟨(h4 m ham'.le hmb'.le e).symm, h3⟩, ham.le, hmb.le, by simp only [RootIv.hi, RootIv.lo, if_true, Bool.false_eq_true, if_false]; linarith⟩
    · rw [if_neg (not_lt.2 e.le), if_neg e.ne']
      rw [evalAtRat_pos] at e
      cases d with
      | true =>
        simp only [if_true] at h5
        have := key ham'.le (le_refl _) hmb'.le (mul_neg_of_neg_of_pos h5.1 e)
        exact ⟨_, rfl, ⟨this.1, this.2, h3, fun x x1 x2 => h4 x x1 (by linarith), h5.1, e⟩, le_refl _, hmb.le, by simp only [RootIv.hi, RootIv.lo, if_true, Bool.false_eq_true, if_false]; linarith⟩
      | false =>
        simp only [Bool.false_eq_true, if_false] at h5
        have := key hmb'.le ham'.le (le_refl _) (mul_neg_of_pos_of_neg e h5.2)
        exact ⟨_, rfl, ⟨this.1, this.2, h3, fun x x1 x2 => h4 x (by linarith) x2, e, h5.2⟩, ham.le, le_refl _, by simp only [RootIv.hi, RootIv.lo, if_true, Bool.false_eq_true, if_false]; linarith⟩

/-- Replacing one interval by a smaller one for the same root. -/
theorem SqRoots.Isolates.set {R : SqRoots} {rs : List ℝ} (h : R.Isolates rs) {idx : Nat} (hidx : idx < R.ivs.length) {j : RootIv}
    (hj : ∀ r, R.ivs[idx].Isolates (rv R.poly) r → j.Isolates (rv R.poly) r) (hlo : R.ivs[idx].lo ≤ j.lo) (hhi : j.hi ≤ R.ivs[idx].hi) :
    SqRoots.Isolates { R with ivs := R.ivs.set idx j } rs := by
  have hl := h.isolates.length_eq
  refine ⟨h.sorted, ?_, ?_⟩
  · rw [List.forall₂_iff_get]
    refine ⟨by simpa using hl, fun i h1 h2 => ?_⟩
    have hi := (List.forall₂_iff_get.1 h.isolates).2
    simp only [List.get_eq_getElem, List.getElem_set] at hi ⊢
    split
    · rename_i e; subst e
      exact hj _ (hi idx hidx h2)
    · exact hi i (by simpa using h1) h2
  · have ho := List.pairwise_iff_getElem.1 h.ordered
    rw [List.pairwise_iff_getElem]
    intro u v hu hv huv
    rw [List.length_set] at hu hv
    have := ho u v hu hv huv
    simp only [List.getElem_set]
    split <;> split
    · omega
    · rename_i e _; subst e; exact hhi.trans this
    · rename_i e; subst e; exact this.trans hlo
    · exact this

theorem SqRoots.refine_spec {s : ℚ → ℚ → ℚ} (hs : SimplestOk s) {R : SqRoots} {rs : List ℝ} (h : R.Isolates rs) {idx : Nat}
    (hidx : idx < R.ivs.length) :
    ∃ j, R.refine s idx = some { R with ivs := R.ivs.set idx j } ∧ R.ivs[idx].lo ≤ j.lo ∧ j.hi ≤ R.ivs[idx].hi ∧
      3 * (j.hi - j.lo) ≤ 2 * (R.ivs[idx].hi - R.ivs[idx].lo) ∧ SqRoots.Isolates { R with ivs := R.ivs.set idx j } rs := by
  have hi := (List.forall₂_iff_get.1 h.isolates).2 idx hidx (h.isolates.length_eq ▸ hidx)
  simp only [List.get_eq_getElem] at hi
  obtain ⟨j, j1, j2, j3, j4, j5⟩ := RootIv.refine_spec hs hi
  refine ⟨j, ?_, j3, j4, j5, h.set hidx (fun r hr => ?_) j3 j4⟩
  · unfold SqRoots.refine
    rw [List.getElem?_eq_getElem hidx]
    simp only [Option.bind_eq_bind, Option.bind_some, j1]
  · obtain ⟨j', k1, k2, -⟩ := RootIv.refine_spec hs hr
    rw [j1] at k1
    cases k1
    exact k2

theorem refine_fold {s : ℚ → ℚ → ℚ} (hs : SimplestOk s) {R : SqRoots} {rs : List ℝ} (h : R.Isolates rs) (n : Nat) (hn : n ≤ R.ivs.length) :
    ∃ R', (List.range n).foldlM (fun R idx => R.refine s idx) R = some R' ∧ R'.poly = R.poly ∧ R'.Isolates rs ∧
      ∃ hl : R'.ivs.length = R.ivs.length, ∀ i (hi : i < R.ivs.length), R.ivs[i].lo ≤ (R'.ivs[i]'(hl ▸ hi)).lo ∧
        (R'.ivs[i]'(hl ▸ hi)).hi ≤ R.ivs[i].hi ∧
        (i < n → 3 * ((R'.ivs[i]'(hl ▸ hi)).hi - (R'.ivs[i]'(hl ▸ hi)).lo) ≤ 2 * (R.ivs[i].hi - R.ivs[i].lo)) ∧
        (n ≤ i → R'.ivs[i]'(hl ▸ hi) = R.ivs[i]) := by
  induction n with
  | zero => exact ⟨R, rfl, rfl, h, rfl, fun i hi => ⟨le_refl _, le_refl _, fun h => absurd h (by omega), fun _ => rfl⟩⟩
  | succ n ih =>
    obtain ⟨R', e, e1, e2, hl, e3⟩ := ih (by omega)
    obtain ⟨j, j1, j2, j3, j4, j5⟩ := SqRoots.refine_spec hs e2 (idx := n) (by omega)
    refine ⟨{ R' with ivs := R'.ivs.set n j }, ?_, e1, j5, by simpa using hl, fun i hi => ?_⟩
    · rw [List.range_succ, List.foldlM_append, e]
      simp only [Option.bind_eq_bind, Option.bind_some, List.foldlM_cons, List.foldlM_nil, j1]
      rfl
    · simp only [List.getElem_set]
      obtain ⟨f1, f2, f3, f4⟩ := e3 i hi
      split
      · rename_i en; subst en
        rw [f4 (le_refl _)] at j2 j3 j4
        exact ⟨j2, j3, fun _ => j4, fun h => absurd h (by omega)⟩
      · exact ⟨f1, f2, fun h => f3 (by omega), fun h => f4 (by omega)⟩

theorem SqRoots.refineAll_spec {s : ℚ → ℚ → ℚ} (hs : SimplestOk s) {R : SqRoots} {rs : List ℝ} (h : R.Isolates rs) :
    ∃ R', R.refineAll s = some R' ∧ R'.poly = R.poly ∧ R'.Isolates rs ∧
      List.Forall₂ (fun i j : RootIv => i.lo ≤ j.lo ∧ j.hi ≤ i.hi ∧ 3 * (j.hi - j.lo) ≤ 2 * (i.hi - i.lo)) R.ivs R'.ivs := by
  obtain ⟨R', e, e1, e2, hl, e3⟩ := refine_fold hs h R.ivs.length (le_refl _)
  refine ⟨R', e, e1, e2, ?_⟩
  rw [List.forall₂_iff_get]
  refine ⟨hl.symm, fun i h1 h2 => ?_⟩
  obtain ⟨f1, f2, f3, -⟩ := e3 i h1
  exact ⟨f1, f2, f3 h1⟩

end Verif.RealRoots
