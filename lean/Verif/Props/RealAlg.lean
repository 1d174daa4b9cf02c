import Verif.Proofs.PolyTools

/-!
# Properties of real algebraic numbers

`x.Is r` (Spec/RealAlg) says that the value `x` of the library stands for the real number `r`.
-/

namespace Verif.RealRoots

open Polynomial Verif.Rings

section
variable {simplest : ℚ → ℚ → ℚ} (hs : SimplestOk simplest)

/-! ## C141: comparison -/

include hs in
/-- **C141**: comparing two real algebraic numbers always ends, with the order of the numbers. -/
theorem C141_cmp (x y : RealAlg) (r t : ℝ) (hx : x.Is r) (hy : y.Is t) : x.cmp simplest y = some (_root_.cmp r t) :=
  RealAlg.cmp_spec hs hx hy

include hs in
/-- `==` is equality of the numbers. -/
theorem C141_eq (x y : RealAlg) (r t : ℝ) (hx : x.Is r) (hy : y.Is t) : x.cmp simplest y = some .eq ↔ r = t := by
  rw [RealAlg.cmp_spec hs hx hy, Option.some_inj, cmp_eq_eq_iff]

include hs in
/-- The refinements made by a comparison do not change the numbers. -/
theorem C141_cmp_mut (x y : RealAlg) (r t : ℝ) (hx : x.Is r) (hy : y.Is t) :
    ∃ x' y', x.cmpMut simplest y = some (_root_.cmp r t, x', y') ∧ x'.Is r ∧ y'.Is t :=
  RealAlg.cmpMut_spec hs hx hy

/-! ## C142: negation -/

/-- **C142**: the negative of a number stands for the negative. -/
theorem C142_neg (x : RealAlg) (r : ℝ) (hx : x.Is r) : ∃ y, x.neg = some y ∧ y.Is (-r) := RealAlg.neg_spec hx

section
variable {fac : Fac} (hf : FacOk fac)

/-! ## C143: inverse -/

include hs hf in
/-- **C143**: the inverse of a number other than zero stands for the inverse; the inverse of zero is the error `DivideByZero`. -/
theorem C143_inv (x : RealAlg) (r : ℝ) (hx : x.Is r) :
    (r = 0 → x.inv simplest fac = some (.error .divideByZero)) ∧ (r ≠ 0 → ∃ y, x.inv simplest fac = some (.ok y) ∧ y.Is r⁻¹) := by
  obtain ⟨h1, h2⟩ := RealAlg.inv_spec hs hf hx
  exact ⟨h1, fun hr => by obtain ⟨y, y1, y2, -⟩ := h2 hr; exact ⟨y, y1, y2⟩⟩

/-! ## C144: addition -/

include hs hf in
/-- **C144**: the sum of two numbers stands for the sum. `X` and `Z` are the two fresh variables of `root_sum_poly`. -/
theorem C144_add (H : HashOrder) {X Z : ℕ} (hXZ : X ≠ Z) (x y : RealAlg) (r t : ℝ)
    (hx : x.Is r) (hy : y.Is t) : ∃ z, RealAlg.add simplest fac (rootSumPoly H X Z) x y = some z ∧ z.Is (r + t) :=
  RealAlg.add_spec hs hf (rootSumPoly_ok H hXZ) hx hy

/-- Adding a rational number does not need the polynomial of the sums. -/
theorem C144_add_rat (hf : FacOk fac) (sumPoly : List Int → List Int → Option (List Int)) (x : RealAlg) (r : ℝ) (hx : x.Is r) (a : ℚ) :
    (∃ z, RealAlg.add simplest fac sumPoly x (.rat a) = some z ∧ z.Is (r + a)) ∧
    (∃ z, RealAlg.add simplest fac sumPoly (.rat a) x = some z ∧ z.Is (a + r)) := by
  cases x with
  | rat b =>
    obtain rfl : r = b := hx
    exact ⟨⟨.rat (b + a), rfl, by simp [RealAlg.Is]⟩, ⟨.rat (a + b), rfl, by simp [RealAlg.Is]⟩⟩
  | real x =>
    obtain ⟨z, z1, z2⟩ := ARoot.addRat_spec hf (show x.Is r from hx) a
    exact ⟨⟨.real z, by simp [RealAlg.add, z1], z2⟩, ⟨.real z, by simp [RealAlg.add, z1], by rw [add_comm]; exact z2⟩⟩

/-! ## C145: multiplication -/

include hs hf in
/-- **C145, part**: the product of two numbers stands for the product, if one of them is rational, or if for both the sign can be read off the
tight bounds. Missing: the other cases, which go wrong (`C145_mul_wrong`). -/
theorem C145_mul_partial (H : HashOrder) {X T : ℕ} (hXT : X ≠ T) (x y : RealAlg) (r t : ℝ)
    (hx : x.Is r) (hy : y.Is t) (hside : (∃ a, x = .rat a) ∨ (∃ b, y = .rat b) ∨ (x.OneSided ∧ y.OneSided)) :
    ∃ z, RealAlg.mul simplest fac (rootProductPoly H X T) x y = some z ∧ z.Is (r * t) :=
  RealAlg.mul_spec hs hf (rootProductPoly_ok H hXT) hx hy hside

include hs hf in
/-- **C145, negation**: `√122 - 11`, computed from the positive root of `x² - 122` as `all_real_roots_squarefree` isolates it, has a correct
representation, but its product with itself is never the number `(√122 - 11)²`. -/
theorem C145_mul_wrong (H : HashOrder) {X Z T : ℕ} (hXT : X ≠ T) :
    ∃ R y x, allRootsSquarefree [-122, 0, 1] = some R ∧ R.rootAt 1 = some y ∧ y.Is (Real.sqrt 122) ∧
      RealAlg.add simplest fac (rootSumPoly H X Z) y (.rat (-11)) = some x ∧ x.Is (Real.sqrt 122 - 11) ∧
      ∀ z, RealAlg.mul simplest fac (rootProductPoly H X T) x x = some z → ¬ z.Is ((Real.sqrt 122 - 11) ^ 2) := by
  refine ⟨_, .real sqrt122, .real sqrt122m11, roots122, roots122_get, sqrt122_is, ?_, sqrt122m11_is hf, fun z hz => mul122 hs hf (rootProductPoly_ok H hXT) hz⟩
  simp [RealAlg.add, add122 hf]

/-! ## C146: division -/

include hs hf in
/-- **C146, part**: division by zero is the error `DivideByZero`, and the quotient by another number stands for the quotient, if one of the
numbers is rational, or if the sign of the dividend can be read off its tight bounds. -/
theorem C146_div_partial (H : HashOrder) {X T : ℕ} (hXT : X ≠ T) (x y : RealAlg) (r t : ℝ)
    (hx : x.Is r) (hy : y.Is t) :
    (t = 0 → RealAlg.div simplest fac (rootProductPoly H X T) x y = some (.error .divideByZero)) ∧
    (t ≠ 0 → (∃ a, x = .rat a) ∨ (∃ b, y = .rat b) ∨ x.OneSided →
      ∃ z, RealAlg.div simplest fac (rootProductPoly H X T) x y = some (.ok z) ∧ z.Is (r / t)) :=
  RealAlg.div_spec hs hf (rootProductPoly_ok H hXT) hx hy

/-! ## C147: refinement -/

include hs in
/-- **C147**: `refine` ends and keeps the number, the polynomial and the wide bounds; the new interval is in the old one and at most two
thirds as wide. -/
theorem C147_refine (x : ARoot) (r : ℝ) (hx : x.Is r) :
    ∃ y, x.refine simplest = some y ∧ y.Is r ∧ y.poly = x.poly ∧ y.wa = x.wa ∧ y.wb = x.wb ∧ x.ta ≤ y.ta ∧ y.tb ≤ x.tb ∧
      y.tb - y.ta ≤ 2 / 3 * (x.tb - x.ta) := by
  obtain ⟨y, y1, y2, y3, y4, y5, y6, y7, y8⟩ := ARoot.refine_spec hs hx
  exact ⟨y, y1, y2, y3, y4, y5, y6, y7, by linarith⟩

include hs in
/-- `refine_to_accuracy` ends for every positive accuracy, with an interval that narrow around the same number. -/
theorem C147_refine_to_accuracy (x : ARoot) (r : ℝ) (hx : x.Is r) (acc : ℚ) (ha : 0 < acc) :
    ∃ y, x.refineTo simplest acc = some y ∧ y.Is r ∧ y.poly = x.poly ∧ y.tb - y.ta ≤ acc ∧ (y.ta : ℝ) < r ∧ r < (y.tb : ℝ) := by
  obtain ⟨y, y1, y2, y3, -, -, -, -, y8⟩ := ARoot.refineTo_spec hs ha hx
  exact ⟨y, y1, y2, y3, y8, y2.ta_lt, y2.lt_tb⟩

/-! ## C148: the invariants -/

include hf in
/-- **C148**: `check_invariants` accepts every value that stands for a number. -/
theorem C148_check (x : RealAlg) (r : ℝ) (hx : x.Is r) : x.check fac = some true := hx.check hf

/-! ## C149: all real roots -/

include hf in
/-- **C149**: `all_real_roots` of every nonzero polynomial ends, and gives exactly the real roots, each as often as its multiplicity. -/
theorem C149_all_real_roots (p : List Int) (h0 : rv p ≠ 0) :
    ∃ l rs, allRealRoots fac p = some l ∧ List.Forall₂ RealAlg.Is l rs ∧ (rs : Multiset ℝ) = (rv p).roots := by
  classical
  obtain ⟨h1, h2⟩ := realRoots_spec hf h0 none none false false
  obtain ⟨l, hl⟩ := h2 (fun _ => trivial)
  obtain ⟨rs, r1, r2⟩ := h1 l hl
  refine ⟨l, rs, hl, r1.2 rfl rfl, ?_⟩
  rw [r2, Multiset.filter_eq_self]
  intro a _
  simp [InRange]

include hf in
/-- The root in one interval of the list of a primitive squarefree polynomial, by `get_real_root`. -/
theorem C149_get_real_root (R : SqRoots) (rs : List ℝ) (h : R.Isolates rs) (hall : ∀ x : ℝ, (rv R.poly).eval x = 0 ↔ x ∈ rs)
    (hp : (polyVal (id : Int → Int) R.poly).IsPrimitive) (hsq : Squarefree (polyVal (id : Int → Int) R.poly)) (i : Nat) (hi : i < rs.length) :
    ∃ x, R.getRealRoot fac i = some x ∧ x.Is rs[i] := by
  have hi' : i < R.ivs.length := by rw [h.isolates.length_eq]; exact hi
  exact getRealRoot_spec hf ⟨h, hall⟩ hp hsq hi'

/-! ## C150: the real roots in a range -/

open Classical in
include hf in
/-- **C150, part**: when `real_roots` of a nonzero polynomial and a range returns, its values are isolated by their tight bounds from the
other roots, and they are exactly the roots in the range, with multiplicity; it returns for every range with two ends in the right order.
Missing: the wide bounds may contain other roots, so that different numbers compare as equal (`C150_range_wrong`). -/
theorem C150_real_roots_partial (p : List Int) (h0 : rv p ≠ 0) (oa ob : Option ℚ) (inclA inclB : Bool) :
    (∀ l, realRoots fac p oa ob inclA inclB = some l →
      ∃ rs, List.Forall₂ RealAlg.Locates l rs ∧ (rs : Multiset ℝ) = (rv p).roots.filter (InRange oa ob inclA inclB)) ∧
    (∀ a b, oa = some a → ob = some b → a < b → ∃ l, realRoots fac p oa ob inclA inclB = some l) := by
  obtain ⟨h1, h2⟩ := realRoots_spec hf h0 oa ob inclA inclB
  refine ⟨fun l hl => ?_, ?_⟩
  · obtain ⟨rs, r1, r2⟩ := h1 l hl
    exact ⟨rs, r1.1, r2⟩
  · rintro a b rfl rfl hab
    exact h2 (fun _ => hab)

theorem no_sqrt2 (y : Int) : y ^ 2 + 0 * y + -2 ≠ 0 := by
  intro h
  have h1 : y ^ 2 = 2 := by linarith
  have h2 : y < 2 := by nlinarith
  have h3 : -2 < y := by nlinarith
  interval_cases y <;> simp at h1

theorem sqrt2_root (x : ℝ) : (rv [-2, 0, 1]).eval x = 0 ↔ x ^ 2 = 2 := by
  rw [rv_quad]; push_cast; constructor <;> intro h <;> linarith

include hs hf in
/-- **C150, negation**: the root of `x² - 2` between `0` and `2` and the root between `-2` and `0`, from `real_roots_irreducible`, compare as
equal. -/
theorem C150_range_wrong : ∃ x y : RealAlg, rootsIrreducible fac [-2, 0, 1] (some 0) (some 2) false false = some [x] ∧
    rootsIrreducible fac [-2, 0, 1] (some (-2)) (some 0) false false = some [y] ∧
    x.Locates (Real.sqrt 2) ∧ y.Locates (-Real.sqrt 2) ∧ x.cmp simplest y = some .eq := by
  have hok := quad_ok no_sqrt2
  have h2 : Real.sqrt 2 ^ 2 = 2 := Real.sq_sqrt (by norm_num)
  have hp : 0 < Real.sqrt 2 := Real.sqrt_pos.2 (by norm_num)
  obtain ⟨a, b, d, h, hi⟩ := rootsIrreducible_single hf hok (oa := some 0) (ob := some 2) (ia := false) (ib := false) (show (0 : ℚ) < 2 by norm_num)
    (r := Real.sqrt 2) (fun x => by
      rw [sqrt2_root]
      simp only [InRange, Option.some.injEq, forall_eq', Bool.false_eq_true, false_and, or_false, Rat.cast_zero, Rat.cast_ofNat]
      constructor
      · rintro rfl; exact ⟨⟨hp, by nlinarith⟩, h2⟩
      · rintro ⟨⟨h3, -⟩, h4⟩
        have : (x - Real.sqrt 2) * (x + Real.sqrt 2) = 0 := by nlinarith
        rcases mul_eq_zero.1 this with e | e <;> linarith)
  obtain ⟨a', b', d', h', hi'⟩ := rootsIrreducible_single hf hok (oa := some (-2)) (ob := some 0) (ia := false) (ib := false) (show (-2 : ℚ) < 0 by norm_num)
    (r := -Real.sqrt 2) (fun x => by
      rw [sqrt2_root]
      simp only [InRange, Option.some.injEq, forall_eq', Bool.false_eq_true, false_and, or_false, Rat.cast_zero, Rat.cast_neg, Rat.cast_ofNat]
      constructor
      · rintro rfl; exact ⟨⟨by nlinarith, by linarith⟩, by rw [neg_sq]; exact h2⟩
      · rintro ⟨⟨-, h3⟩, h4⟩
        have : (x - Real.sqrt 2) * (x + Real.sqrt 2) = 0 := by nlinarith
        rcases mul_eq_zero.1 this with e | e <;> linarith)
  refine ⟨_, _, h, h', ⟨hok.reduced, hok.irreducible, hok.positive, hok.degree, hi, by simp [Within]⟩,
    ⟨hok.reduced, hok.irreducible, hok.positive, hok.degree, hi', by simp [Within]⟩, ?_⟩
  have he : intPoly.equal [-2, 0, 1] [-2, 0, 1] = true := (intPoly_models.toSemi.equal _ _).2 rfl
  simp only [RealAlg.cmp, RealAlg.cmpMut, ARoot.cmpMut, he]
  rw [cmpLoop]
  simp [lowerLe, leUpper]

/-! ## C151: roots -/

include hs hf in
/-- **C151**: the `n`-th root of a number that is not negative is the nonnegative number with that `n`-th power; for a negative number and
`n ≥ 2` it is an error. -/
theorem C151_nth_root (x : RealAlg) (r : ℝ) (hx : x.Is r) (n : Nat) (hn : n ≠ 0) :
    (r < 0 → 2 ≤ n → nthRoot simplest fac x n = some (.error ())) ∧
    (0 ≤ r → ∃ z ρ, nthRoot simplest fac x n = some (.ok z) ∧ z.Is ρ ∧ 0 ≤ ρ ∧ ρ ^ n = r) := by
  by_cases h1 : n = 1
  · subst h1
    exact ⟨fun _ h => absurd h (by norm_num), fun h => ⟨x, r, rfl, hx, h, pow_one r⟩⟩
  · obtain ⟨a, b⟩ := nthRoot_spec hs hf hx (by omega : 2 ≤ n)
    exact ⟨fun h _ => a h, b⟩

/-- The zeroth root panics. -/
theorem C151_zeroth (x : RealAlg) : nthRoot simplest fac x 0 = none := rfl

/-! ## C152: identification of a root -/

include hs hf in
/-- **C152**: `identify_real_root` of a nonzero polynomial and intervals that shrink to one of its real roots ends with that root. -/
theorem C152_identify (p : List Int) (h0 : rv p ≠ 0) (γ : ℝ) (hγ : (rv p).eval γ = 0) (gen : Nat → Option (ℚ × ℚ))
    (h1 : ∀ i, ∃ a b, gen i = some (a, b) ∧ (a : ℝ) < γ ∧ γ < (b : ℝ))
    (h2 : ∀ ε : ℝ, 0 < ε → ∃ N, ∀ i ≥ N, ∀ a b, gen i = some (a, b) → (b : ℝ) - a < ε) :
    ∃ x, identify simplest fac p gen = some x ∧ x.Is γ :=
  identify_spec hs hf h0 hγ ⟨h1, h2⟩

end
end

/-! ## C153: the polynomials of sums and products -/

/-- **C153**: `root_sum_poly` of two nonzero polynomials returns a primitive squarefree polynomial whose complex roots are exactly the sums of a
root of the first and a root of the second. -/
theorem C153_root_sum_poly (H : HashOrder) {X Z : ℕ} (hXZ : X ≠ Z) : OpPolyExact (· + ·) (rootSumPoly H X Z) := rootSumPoly_exact H hXZ

/-- **C153**: `root_product_poly`, the same with products. -/
theorem C153_root_product_poly (H : HashOrder) {X T : ℕ} (hXT : X ≠ T) : OpPolyExact (· * ·) (rootProductPoly H X T) := rootProductPoly_exact H hXT

/-! ## The hypotheses can be met -/

/-- `C153` for `x² - 2` twice: `2√2` is a root, `1` is not. -/
example (H : HashOrder) : ∃ r, rootSumPoly H 0 1 [-2, 0, 1] [-2, 0, 1] = some r ∧ (rv r).eval (2 * Real.sqrt 2) = 0 := by
  have h0 : rv [-2, 0, 1] ≠ 0 := rv_ne_zero.2 (quad_ok no_sqrt2).irreducible.ne_zero
  obtain ⟨r, r1, -, r2⟩ := rootSumPoly_ok H (x := 0) (z := 1) (by decide) _ _ h0 h0
  have h4 : Real.sqrt 2 ^ 2 = 2 := Real.sq_sqrt (by norm_num)
  have h5 : (rv [-2, 0, 1]).eval (Real.sqrt 2) = 0 := by rw [← IsRoot.def, IsRoot, sqrt2_root]; exact h4
  exact ⟨r, r1, by rw [two_mul]; exact r2 _ _ h5 h5⟩

/-- `√2`, as `all_real_roots` of `x² - 2` gives it. -/
def exSqrt2 : ARoot := ⟨[-2, 0, 1], 0, 4, some 0, none, true⟩

theorem exSqrt2_is : exSqrt2.Is (Real.sqrt 2) := by
  have := sqrt_is (m := 2) (by norm_num) no_sqrt2 (b := 4) (by norm_num) (by norm_num)
  simpa [exSqrt2] using this

/-- `C141` for `√2` and `1`. -/
example : ∃ simplest, SimplestOk simplest ∧ RealAlg.cmp simplest (.real exSqrt2) (.rat 1) = some .gt := by
  obtain ⟨s, hs⟩ := exists_simplest
  refine ⟨s, hs, ?_⟩
  have hx : (RealAlg.real exSqrt2).Is (Real.sqrt 2) := exSqrt2_is
  have hy : (RealAlg.rat 1).Is 1 := by simp [RealAlg.Is]
  rw [C141_cmp hs _ _ _ 1 hx hy, (cmp_eq_gt_iff _ _).2]
  rw [Real.lt_sqrt (by norm_num)]; norm_num

/-- `C142` to `C146` and `C151` for `√2`. -/
example (H : HashOrder) : ∃ simplest fac, SimplestOk simplest ∧ FacOk fac ∧
    (∃ y, (RealAlg.real exSqrt2).neg = some y ∧ y.Is (-Real.sqrt 2)) ∧
    (∃ y, (RealAlg.real exSqrt2).inv simplest fac = some (.ok y) ∧ y.Is (Real.sqrt 2)⁻¹) ∧
    (∃ y, RealAlg.add simplest fac (rootSumPoly H 0 1) (.real exSqrt2) (.real exSqrt2) = some y ∧ y.Is (Real.sqrt 2 + Real.sqrt 2)) ∧
    (∃ y, RealAlg.mul simplest fac (rootProductPoly H 0 1) (.real exSqrt2) (.real exSqrt2) = some y ∧ y.Is 2) ∧
    (∃ y, RealAlg.div simplest fac (rootProductPoly H 0 1) (.real exSqrt2) (.real exSqrt2) = some (.ok y) ∧ y.Is 1) ∧
    (∃ y ρ, nthRoot simplest fac (.real exSqrt2) 2 = some (.ok y) ∧ y.Is ρ ∧ 0 ≤ ρ ∧ ρ ^ 2 = Real.sqrt 2) := by
  obtain ⟨s, hs⟩ := exists_simplest
  obtain ⟨fac, hf⟩ := exists_facOk
  have h01 : (0 : ℕ) ≠ 1 := by decide
  have hx : (RealAlg.real exSqrt2).Is (Real.sqrt 2) := exSqrt2_is
  have hp : 0 < Real.sqrt 2 := Real.sqrt_pos.2 (by norm_num)
  have h1 : (RealAlg.real exSqrt2).OneSided := Or.inr (le_refl _)
  refine ⟨s, fac, hs, hf, C142_neg _ _ hx, (C143_inv hs hf _ _ hx).2 hp.ne', C144_add hs hf H h01 _ _ _ _ hx hx, ?_, ?_,
    (C151_nth_root hs hf _ _ hx 2 (by norm_num)).2 hp.le⟩
  · have := C145_mul_partial hs hf H h01 _ _ _ _ hx hx (Or.inr (Or.inr ⟨h1, h1⟩))
    rwa [Real.mul_self_sqrt (by norm_num)] at this
  · have := (C146_div_partial hs hf H h01 _ _ _ _ hx hx).2 hp.ne' (Or.inr (Or.inr h1))
    rwa [div_self hp.ne'] at this

/-- `C147` and `C148` for `√2`. -/
example : ∃ simplest fac y, SimplestOk simplest ∧ FacOk fac ∧ exSqrt2.refineTo simplest (1 / 1000) = some y ∧ y.Is (Real.sqrt 2) ∧
    y.tb - y.ta ≤ 1 / 1000 ∧ (RealAlg.real y).check fac = some true := by
  obtain ⟨s, hs⟩ := exists_simplest
  obtain ⟨fac, hf⟩ := exists_facOk
  obtain ⟨y, y1, y2, -, y3, -⟩ := C147_refine_to_accuracy hs _ _ exSqrt2_is (1 / 1000) (by norm_num)
  exact ⟨s, fac, y, hs, hf, y1, y2, y3, C148_check hf _ _ y2⟩

/-- `C149` for `x² - 2`. -/
example : ∃ fac l rs, FacOk fac ∧ allRealRoots fac [-2, 0, 1] = some l ∧ List.Forall₂ RealAlg.Is l rs ∧ Real.sqrt 2 ∈ rs ∧ -Real.sqrt 2 ∈ rs := by
  obtain ⟨fac, hf⟩ := exists_facOk
  have h0 : rv [-2, 0, 1] ≠ 0 := rv_ne_zero.2 (quad_ok no_sqrt2).irreducible.ne_zero
  obtain ⟨l, rs, h1, h2, h3⟩ := C149_all_real_roots hf [-2, 0, 1] h0
  have h4 : Real.sqrt 2 ^ 2 = 2 := Real.sq_sqrt (by norm_num)
  refine ⟨fac, l, rs, hf, h1, h2, ?_, ?_⟩
  · rw [← Multiset.mem_coe, h3, mem_roots h0, IsRoot, sqrt2_root]; exact h4
  · rw [← Multiset.mem_coe, h3, mem_roots h0, IsRoot, sqrt2_root, neg_sq]; exact h4

/-- The parameters of `C145_mul_wrong` exist. -/
example : ∃ simplest fac, SimplestOk simplest ∧ FacOk fac := by
  obtain ⟨s, hs⟩ := exists_simplest
  obtain ⟨fac, hf⟩ := exists_facOk
  exact ⟨s, fac, hs, hf⟩

/-- `C152` for the positive root of `x² - 2`. -/
example : ∃ gen : Nat → Option (ℚ × ℚ), (∀ i, ∃ a b, gen i = some (a, b) ∧ (a : ℝ) < Real.sqrt 2 ∧ Real.sqrt 2 < (b : ℝ)) ∧
    ∀ ε : ℝ, 0 < ε → ∃ N, ∀ i ≥ N, ∀ a b, gen i = some (a, b) → (b : ℝ) - a < ε := by
  obtain ⟨s, hs⟩ := exists_simplest
  have := sumGen_shrinks hs exSqrt2_is exSqrt2_is
  refine ⟨fun i => (sumGen s exSqrt2 exSqrt2 i).map fun t => (t.1 / 2, t.2 / 2), fun i => ?_, fun ε hε => ?_⟩
  · obtain ⟨a, b, h1, h2, h3⟩ := this.around i
    exact ⟨a / 2, b / 2, by simp [h1], by push_cast; linarith, by push_cast; linarith⟩
  · obtain ⟨N, hN⟩ := this.narrow ε hε
    refine ⟨N, fun i hi a b h => ?_⟩
    simp only [Option.map_eq_some_iff] at h
    obtain ⟨⟨u, v⟩, h1, h2⟩ := h
    simp only [Prod.mk.injEq] at h2
    have := hN i hi u v h1
    rw [← h2.1, ← h2.2]
    push_cast
    linarith

end Verif.RealRoots
