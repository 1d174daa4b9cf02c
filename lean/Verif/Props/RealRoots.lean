import Verif.Proofs.RealSqfreeConv
import Mathlib.Tactic.ComputeDegree

/-!
# Properties of the isolation of real roots
-/

namespace Verif.RealRoots

open Polynomial Verif.Rings

/-- **C138, part**: for every squarefree nonzero polynomial and every range for which the call does not panic, `real_roots_squarefree` ends, and
its intervals isolate exactly the real roots in the range, in increasing order. Missing for the full property: a range with one end only,
beyond the bound on the roots, panics instead of giving no root (`C138_wrong`). -/
theorem C138_isolates_partial (p : List Int) (h0 : rv p ≠ 0) (hsq : Squarefree (rv p)) (oa ob : Option ℚ) (inclA inclB : Bool)
    (hr : RangeOk p oa ob) :
    ∃ R rs, rootsSquarefree p oa ob inclA inclB = some R ∧ R.poly = p ∧ R.checkInvariants = some true ∧ R.Isolates rs ∧
      ∀ x : ℝ, x ∈ rs ↔ InRange oa ob inclA inclB x ∧ (rv p).eval x = 0 := by
  obtain ⟨R, rs, h1, h2, h3, h4⟩ := rootsSquarefree_spec h0 hsq inclA inclB hr
  subst h2
  exact ⟨R, rs, h1, rfl, h3.check h0 hsq, h3, h4⟩

/-- It panics in all the other cases. -/
theorem C138_domain (p : List Int) (oa ob : Option ℚ) (inclA inclB : Bool) :
    (∃ R, rootsSquarefree p oa ob inclA inclB = some R) ↔ rv p ≠ 0 ∧ Squarefree (rv p) ∧ RangeOk p oa ob := by
  constructor
  · rintro ⟨R, h⟩; exact rootsSquarefree_some h
  · rintro ⟨h0, hsq, hr⟩
    obtain ⟨R, rs, h1, -⟩ := rootsSquarefree_spec h0 hsq inclA inclB hr
    exact ⟨R, h1⟩

theorem rv_xx2 : rv [-2, 0, 1] = X ^ 2 - 2 := by
  have : rv [-2, 0, 1] = C ((-2 : Int) : ℝ) + X * (C ((0 : Int) : ℝ) + X * (C ((1 : Int) : ℝ) + X * 0)) := by
    simp only [rv, polyVal]
  rw [this]
  have h2 : (C (2 : ℝ)) = 2 := map_ofNat C 2
  simp only [Int.cast_neg, Int.cast_ofNat, Int.cast_zero, Int.cast_one, map_neg, h2, C_0, C_1]
  ring

theorem xx2_ne : rv [-2, 0, 1] ≠ 0 := by
  rw [rv_xx2]
  intro h
  have := congrArg (eval 0) h
  simp at this

theorem xx2_sqfree : Squarefree (rv [-2, 0, 1]) := by
  have h2 : (C (2 : ℝ)) = 2 := map_ofNat C 2
  rw [rv_xx2, ← h2]
  exact (separable_X_pow_sub_C (n := 2) (2 : ℝ) (by norm_num) (by norm_num)).squarefree

/-- **C138, negation**: `x² - 2` has no root above `10`, but `real_roots_squarefree(x² - 2, Some(10), None, ..)` panics. -/
theorem C138_wrong : ∃ (p : List Int) (a : ℚ), rv p ≠ 0 ∧ Squarefree (rv p) ∧ (∀ x : ℝ, a < x → (rv p).eval x ≠ 0) ∧
    ∀ inclA inclB, rootsSquarefree p (some a) none inclA inclB = none := by
  refine ⟨[-2, 0, 1], 10, xx2_ne, xx2_sqfree, fun x hx => ?_, fun ia ib => rootsSquarefree_fails xx2_ne ia ib ?_⟩
  · rw [rv_xx2]
    push_cast at hx
    have h2 : ((2 : ℝ[X])).eval x = 2 := eval_ofNat 2 x
    rw [eval_sub, eval_pow, eval_X, h2]
    nlinarith
  · have hd : (rv [-2, 0, 1]).natDegree = 2 := by
      rw [rv_xx2]; compute_degree!
    intro h
    have := h (le_of_eq hd.symm)
    rw [hd] at this
    revert this
    decide +kernel

/-- **C139**: `all_real_roots_squarefree` ends on every squarefree nonzero polynomial, and finds every real root once. -/
theorem C139_all_roots (p : List Int) (h0 : rv p ≠ 0) (hsq : Squarefree (rv p)) :
    ∃ R rs, allRootsSquarefree p = some R ∧ R.poly = p ∧ R.Isolates rs ∧ (∀ x : ℝ, x ∈ rs ↔ (rv p).eval x = 0) ∧
      R.ivs.length = (rv p).roots.card := by
  obtain ⟨R, rs, h1, h2, h3, h4⟩ := rootsSquarefree_spec h0 hsq false false (oa := none) (ob := none) trivial
  have h5 : ∀ x : ℝ, x ∈ rs ↔ (rv p).eval x = 0 := fun x => by rw [h4]; simp [InRange]
  refine ⟨R, rs, h1, h2, h3, h5, ?_⟩
  have hn : (rv p).roots.Nodup := nodup_roots (PerfectField.separable_iff_squarefree.2 hsq)
  have he : (rv p).roots = (rs : Multiset ℝ) := by
    rw [Multiset.Nodup.ext hn (Multiset.coe_nodup.2 (h3.sorted.imp fun h => ne_of_lt h))]
    intro x
    rw [mem_roots h0, Multiset.mem_coe, h5]
    rfl
  rw [he, Multiset.coe_card, h3.isolates.length_eq]

/-- **C140**: `refine` on a list that isolates some roots keeps isolating the same roots; the refined interval lies in the old one and is at
most two thirds as wide, and the others are not touched. -/
theorem C140_refine {simplest : ℚ → ℚ → ℚ} (hs : SimplestOk simplest) (R : SqRoots) (rs : List ℝ) (h : R.Isolates rs) (idx : Nat)
    (hidx : idx < R.ivs.length) :
    ∃ j, R.refine simplest idx = some ⟨R.poly, R.ivs.set idx j⟩ ∧ R.ivs[idx].lo ≤ j.lo ∧ j.hi ≤ R.ivs[idx].hi ∧
      j.hi - j.lo ≤ 2 / 3 * (R.ivs[idx].hi - R.ivs[idx].lo) ∧ SqRoots.Isolates ⟨R.poly, R.ivs.set idx j⟩ rs := by
  obtain ⟨j, h1, h2, h3, h4, h5⟩ := SqRoots.refine_spec hs h hidx
  exact ⟨j, h1, h2, h3, by linarith, h5⟩

/-- The same for `refine_all`, which refines each interval once. -/
theorem C140_refine_all {simplest : ℚ → ℚ → ℚ} (hs : SimplestOk simplest) (R : SqRoots) (rs : List ℝ) (h : R.Isolates rs) :
    ∃ R', R.refineAll simplest = some R' ∧ R'.poly = R.poly ∧ R'.Isolates rs ∧
      List.Forall₂ (fun i j : RootIv => i.lo ≤ j.lo ∧ j.hi ≤ i.hi ∧ j.hi - j.lo ≤ 2 / 3 * (i.hi - i.lo)) R.ivs R'.ivs := by
  obtain ⟨R', h1, h2, h3, h4⟩ := SqRoots.refineAll_spec hs h
  exact ⟨R', h1, h2, h3, h4.imp fun _ _ ⟨a, b, c⟩ => ⟨a, b, by linarith⟩⟩

/-- Refining often enough makes every interval as narrow as wanted. -/
theorem C140_converges {simplest : ℚ → ℚ → ℚ} (hs : SimplestOk simplest) (R : SqRoots) (rs : List ℝ) (h : R.Isolates rs) (ε : ℚ) (hε : 0 < ε) :
    ∃ n R', (fun s : Option SqRoots => s.bind (SqRoots.refineAll simplest))^[n] (some R) = some R' ∧ R'.Isolates rs ∧
      ∀ j ∈ R'.ivs, j.hi - j.lo < ε := by
  have key : ∀ n : Nat, ∃ R', (fun s : Option SqRoots => s.bind (SqRoots.refineAll simplest))^[n] (some R) = some R' ∧ R'.Isolates rs ∧
      List.Forall₂ (fun i j : RootIv => j.hi - j.lo ≤ (2 / 3) ^ n * (i.hi - i.lo)) R.ivs R'.ivs := by
    intro n
    induction n with
    | zero => exact ⟨R, rfl, h, List.forall₂_same.2 fun i _ => by simp⟩
    | succ n ih =>
      obtain ⟨R', e, e1, e2⟩ := ih
      obtain ⟨R'', f, -, f1, f2⟩ := C140_refine_all hs R' rs e1
      refine ⟨R'', by rw [Function.iterate_succ_apply', e]; exact f, f1, ?_⟩
      rw [List.forall₂_iff_get] at e2 f2 ⊢
      refine ⟨e2.1.trans f2.1, fun i h1 h2 => ?_⟩
      have a := e2.2 i h1 (e2.1 ▸ h1)
      have b := (f2.2 i (e2.1 ▸ h1) h2).2.2
      calc _ ≤ _ := b
        _ ≤ 2 / 3 * _ := mul_le_mul_of_nonneg_left a (by norm_num)
        _ = _ := by ring
  have hw : ∃ W : ℚ, ∀ i ∈ R.ivs, i.hi - i.lo ≤ W ∧ 0 ≤ W := by
    refine ⟨(R.ivs.map fun i => |i.hi - i.lo|).sum, fun i hi => ⟨?_, List.sum_nonneg (by simp)⟩⟩
    exact (le_abs_self _).trans (List.single_le_sum (by simp) _ (List.mem_map.2 ⟨i, hi, rfl⟩))
  obtain ⟨W, hW⟩ := hw
  obtain ⟨n, hn⟩ := exists_pow_lt_of_lt_one (div_pos hε (by positivity : (0 : ℚ) < |W| + 1)) (by norm_num : (2 / 3 : ℚ) < 1)
  obtain ⟨R', e, e1, e2⟩ := key n
  refine ⟨n, R', e, e1, fun j hj => ?_⟩
  obtain ⟨i, hi, hij⟩ := forall₂_left e2 hj
  have hpos : (0 : ℚ) < (2 / 3) ^ n := by positivity
  rw [lt_div_iff₀ (by positivity)] at hn
  have := (hW i hi).1
  have h2 : i.hi - i.lo ≤ |W| + 1 := by linarith [le_abs_self W]
  calc _ ≤ _ := hij
    _ ≤ (2 / 3) ^ n * (|W| + 1) := mul_le_mul_of_nonneg_left h2 hpos.le
    _ < ε := hn

-- the roots of `x² - 2`: two irrational numbers, one with `x > 0`
example : ∃ R rs, rootsSquarefree [-2, 0, 1] (some 0) none false false = some R ∧ R.Isolates rs ∧ rs = [Real.sqrt 2] := by
  have hr : RangeOk [-2, 0, 1] (some 0) none := by
    intro _
    have := cauchyBound_ge [-2, 0, 1] (rv [-2, 0, 1]).natDegree
    linarith
  obtain ⟨R, rs, h1, -, -, h3, h4⟩ := C138_isolates_partial [-2, 0, 1] xx2_ne xx2_sqfree (some 0) none false false hr
  refine ⟨R, rs, h1, h3, ?_⟩
  have hm : ∀ x : ℝ, x ∈ rs ↔ x = Real.sqrt 2 := by
    intro x
    have h2 : ((2 : ℝ[X])).eval x = 2 := eval_ofNat 2 x
    rw [h4, rv_xx2, eval_sub, eval_pow, eval_X, h2]
    simp only [InRange, Option.some.injEq, forall_eq', reduceCtorEq, false_implies, implies_true, and_true, Bool.false_eq_true, false_and, or_false, Rat.cast_zero]
    constructor
    · rintro ⟨a, b⟩
      rw [eq_comm, Real.sqrt_eq_iff_mul_self_eq_of_pos a]
      nlinarith
    · rintro rfl
      refine ⟨by positivity, ?_⟩
      rw [Real.sq_sqrt (by norm_num)]; norm_num
  have hn : rs.Nodup := h3.sorted.imp fun h => ne_of_lt h
  match rs, hm, hn with
  | [], hm, _ => exact absurd ((hm _).2 rfl) (by simp)
  | [x], hm, _ => rw [(hm x).1 (by simp)]
  | x :: y :: l, hm, hn =>
    have a := (hm x).1 (by simp)
    have b := (hm y).1 (by simp)
    simp [a, b] at hn

-- the order of the rationals exists
example : SimplestOk fun a b => (a + b) / 2 := fun a b h => ⟨by linarith, by linarith⟩

-- a list to refine, with both roots of `x² - 2`
example : ∃ R rs, allRootsSquarefree [-2, 0, 1] = some R ∧ R.Isolates rs ∧ R.ivs.length = 2 := by
  obtain ⟨R, rs, h1, h2, h3, h4, h5⟩ := C139_all_roots [-2, 0, 1] xx2_ne xx2_sqfree
  refine ⟨R, rs, h1, h3, ?_⟩
  have hs : rv [-2, 0, 1] = (X - C (Real.sqrt 2)) * (X - C (-Real.sqrt 2)) := by
    rw [rv_xx2]
    have : C (Real.sqrt 2) * C (Real.sqrt 2) = (2 : ℝ[X]) := by
      rw [← C_mul, Real.mul_self_sqrt (by norm_num)]; exact map_ofNat C 2
    rw [C_neg]
    linear_combination this
  rw [h5, hs, roots_mul (by rw [← hs]; exact xx2_ne), roots_X_sub_C, roots_X_sub_C]
  rfl

end Verif.RealRoots
