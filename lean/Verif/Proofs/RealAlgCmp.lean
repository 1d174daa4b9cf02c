import Verif.Spec.RealAlg
import Verif.Proofs.RealSqfreeConv
import Mathlib.FieldTheory.Minpoly.Field
import Mathlib.Order.Compare

/-!
# Comparison of real algebraic numbers
-/

namespace Verif.RealRoots

open Polynomial Verif.Rings

/-- An irreducible integer polynomial of positive degree is primitive. -/
theorem irr_primitive {p : ℤ[X]} (h : Irreducible p) (hd : 0 < p.natDegree) : p.IsPrimitive :=
  h.isPrimitive (by omega)

/-- A normalised irreducible polynomial with a root divides every polynomial with that root. -/
theorem irr_dvd {p q : ℤ[X]} (hp : Irreducible p) (hd : 0 < p.natDegree) {r : ℝ} (h1 : (p.map (Int.castRingHom ℝ)).eval r = 0)
    (h2 : (q.map (Int.castRingHom ℝ)).eval r = 0) : p ∣ q := by
  have hpp := irr_primitive hp hd
  have hQ : Irreducible (p.map (Int.castRingHom ℚ)) := (IsPrimitive.Int.irreducible_iff_irreducible_map_cast hpp).1 hp
  have hm : ∀ f : ℤ[X], (f.map (Int.castRingHom ℝ)).eval r = 0 → aeval r (f.map (Int.castRingHom ℚ)) = 0 := by
    intro f hf
    rw [aeval_def, eval₂_map]
    rw [eval_map] at hf
    rw [show (algebraMap ℚ ℝ).comp (Int.castRingHom ℚ) = Int.castRingHom ℝ from RingHom.ext_int _ _]
    exact hf
  have d1 := minpoly.dvd ℚ r (hm p h1)
  have d2 := minpoly.dvd ℚ r (hm q h2)
  have hint : IsIntegral ℚ r := isAlgebraic_iff_isIntegral.1 ⟨_, hQ.ne_zero, hm p h1⟩
  have hass : Associated (minpoly ℚ r) (p.map (Int.castRingHom ℚ)) := (minpoly.irreducible hint).associated_of_dvd hQ d1
  exact (IsPrimitive.Int.dvd_iff_map_cast_dvd_map_cast _ _ hpp).2 (hass.symm.dvd.trans d2)

theorem assoc_pos {p q : ℤ[X]} (h : Associated p q) (hp : 0 < p.leadingCoeff) (hq : 0 < q.leadingCoeff) : p = q := by
  obtain ⟨u, hu⟩ := h
  obtain ⟨c, hc, hcu⟩ := Polynomial.isUnit_iff.1 u.isUnit
  rcases Int.isUnit_iff.1 hc with rfl | rfl
  · rw [← hu, ← hcu]; simp
  · rw [← hu, ← hcu] at hq
    simp at hq
    omega

/-- Two normalised irreducible polynomials with a common root are equal. -/
theorem irr_eq {p q : ℤ[X]} (hp : Irreducible p) (hq : Irreducible q) (hdp : 0 < p.natDegree) (hdq : 0 < q.natDegree)
    (lp : 0 < p.leadingCoeff) (lq : 0 < q.leadingCoeff) {r : ℝ} (h1 : (p.map (Int.castRingHom ℝ)).eval r = 0)
    (h2 : (q.map (Int.castRingHom ℝ)).eval r = 0) : p = q :=
  assoc_pos (associated_of_dvd_dvd (irr_dvd hp hdp h1 h2) (irr_dvd hq hdq h2 h1)) lp lq

/-- An irreducible polynomial of degree at least two has no rational root. -/
theorem irr_no_rat {p : List Int} (h : Irreducible (ipoly p)) (hd : 2 ≤ (ipoly p).natDegree) (q : ℚ) : (rv p).eval (q : ℝ) ≠ 0 := by
  intro h1
  have hl : (rv (linearAt q)).eval (q : ℝ) = 0 := by
    have : rv (linearAt q) = C ((-ratNumerator q : Int) : ℝ) + X * (C ((ratDenominator q : Int) : ℝ) + X * 0) := by
      simp only [rv, linearAt, polyVal]
    rw [this]
    simp only [eval_add, eval_C, eval_mul, eval_X, eval_zero, mul_zero, add_zero]
    have := Rat.mul_den_eq_num q
    rw [ratNumerator_eq]
    simp only [ratDenominator]
    push_cast
    have h2 : (q : ℝ) * q.den = q.num := by exact_mod_cast this
    linarith
  rw [rv_eq] at h1 hl
  have := irr_dvd h (by omega) h1 hl
  have hne : ipoly (linearAt q) ≠ 0 := by
    intro e
    have := congrArg (fun f => f.coeff 1) e
    simp only [linearAt, polyVal, coeff_add, coeff_zero, coeff_C_succ, coeff_X_mul, coeff_C_zero, id, zero_add, ratDenominator] at this
    simp at this
  have h3 := natDegree_le_of_dvd this hne
  have h4 : (ipoly (linearAt q)).natDegree ≤ 1 := by
    simp only [linearAt, polyVal_cons]
    simp
    compute_degree
  omega

theorem ARoot.Is.irrational {x : ARoot} {r : ℝ} (h : x.Is r) (q : ℚ) : (rv x.poly).eval (q : ℝ) ≠ 0 :=
  irr_no_rat h.irreducible h.degree q

theorem ARoot.Is.ne_rat {x : ARoot} {r : ℝ} (h : x.Is r) (q : ℚ) : r ≠ q := by
  rintro rfl
  exact h.irrational q h.tight.2.2.1

theorem ARoot.Is.root {x : ARoot} {r : ℝ} (h : x.Is r) : (rv x.poly).eval r = 0 := h.tight.2.2.1

theorem ARoot.Is.ta_lt {x : ARoot} {r : ℝ} (h : x.Is r) : (x.ta : ℝ) < r := h.tight.1
theorem ARoot.Is.lt_tb {x : ARoot} {r : ℝ} (h : x.Is r) : r < (x.tb : ℝ) := h.tight.2.1
theorem ARoot.Is.lt {x : ARoot} {r : ℝ} (h : x.Is r) : x.ta < x.tb := by exact_mod_cast h.ta_lt.trans h.lt_tb

/-- `refine` of a root. -/
theorem ARoot.refine_spec {s : ℚ → ℚ → ℚ} (hs : SimplestOk s) {x : ARoot} {r : ℝ} (h : x.Is r) :
    ∃ y, x.refine s = some y ∧ y.Is r ∧ y.poly = x.poly ∧ y.wa = x.wa ∧ y.wb = x.wb ∧ x.ta ≤ y.ta ∧ y.tb ≤ x.tb ∧
      3 * (y.tb - y.ta) ≤ 2 * (x.tb - x.ta) := by
  obtain ⟨m, m1, m2, m3⟩ := middleThird_spec hs h.lt
  have hm : evalAtRat x.poly m ≠ 0 := fun e => h.irrational m ((evalAtRat_zero _ _).1 e)
  obtain ⟨j, j1, j2, j3, j4, j5⟩ := RootIv.refine_spec hs h.tight
  unfold ARoot.refine
  simp only [RootIv.refine, m1, Option.bind_eq_bind, Option.bind_some] at j1 ⊢
  have hlt := h.lt
  have key : ∀ a b, j = .real a b x.dir → ARoot.Is { x with ta := a, tb := b } r := by
    rintro a b rfl
    exact ⟨h.reduced, h.irreducible, h.positive, h.degree, j2, h.within, h.unique⟩
  rcases lt_or_gt_of_ne hm with e | e
  · rw [if_pos e] at j1
    have e' : decide (evalAtRat x.poly m > 0) = false := decide_eq_false (not_lt.2 e.le)
    rw [e']
    cases hd : x.dir with
    | true =>
      rw [hd, if_pos rfl] at j1
      cases j1
      refine ⟨{ x with ta := m }, by rw [if_neg (by simp)]; simp [hd], ?_, rfl, rfl, rfl, ?_, le_refl _, ?_⟩
      · have := key m x.tb (by rw [hd])
        exact this
      · exact j3
      · exact j5
    | false =>
      rw [hd, if_neg (by simp)] at j1
      cases j1
      refine ⟨{ x with tb := m }, by rw [if_pos (by simp)]; simp [hd], ?_, rfl, rfl, rfl, le_refl _, ?_, ?_⟩
      · have := key x.ta m (by rw [hd])
        exact this
      · exact j4
      · exact j5
  · rw [if_neg (not_lt.2 e.le), if_neg hm] at j1
    have e' : decide (evalAtRat x.poly m > 0) = true := decide_eq_true e
    rw [e']
    cases hd : x.dir with
    | true =>
      rw [hd, if_pos rfl] at j1
      cases j1
      refine ⟨{ x with tb := m }, by rw [if_pos (by simp)]; simp [hd], ?_, rfl, rfl, rfl, le_refl _, ?_, ?_⟩
      · have := key x.ta m (by rw [hd])
        exact this
      · exact j4
      · exact j5
    | false =>
      rw [hd, if_neg (by simp)] at j1
      cases j1
      refine ⟨{ x with ta := m }, by rw [if_neg (by simp)]; simp [hd], ?_, rfl, rfl, rfl, ?_, le_refl _, ?_⟩
      · have := key m x.tb (by rw [hd])
        exact this
      · exact j3
      · exact j5

theorem ARoot.refineN_spec {s : ℚ → ℚ → ℚ} (hs : SimplestOk s) {x : ARoot} {r : ℝ} (h : x.Is r) (n : Nat) :
    ∃ y, x.refineN s n = some y ∧ y.Is r ∧ y.poly = x.poly ∧ y.wa = x.wa ∧ y.wb = x.wb ∧ x.ta ≤ y.ta ∧ y.tb ≤ x.tb ∧
      y.tb - y.ta ≤ (2 / 3) ^ n * (x.tb - x.ta) := by
  induction n with
  | zero => exact ⟨x, rfl, h, rfl, rfl, rfl, le_refl _, le_refl _, by simp⟩
  | succ n ih =>
    obtain ⟨y, e, y1, y2, y3, y4, y5, y6, y7⟩ := ih
    obtain ⟨z, e', z1, z2, z3, z4, z5, z6, z7⟩ := ARoot.refine_spec hs y1
    refine ⟨z, by rw [ARoot.refineN, e]; exact e', z1, z2.trans y2, z3.trans y3, z4.trans y4, y5.trans z5, z6.trans y6, ?_⟩
    have : (2 / 3 : ℚ) ^ (n + 1) * (x.tb - x.ta) = 2 / 3 * ((2 / 3) ^ n * (x.tb - x.ta)) := by ring
    rw [this]
    linarith

/-- Powers of three halves exceed every bound. -/
theorem exists_pow_width (w δ : ℝ) (hδ : 0 < δ) : ∃ n : Nat, w < δ * (3 / 2) ^ n := by
  obtain ⟨n, hn⟩ := pow_unbounded_of_one_lt (w / δ) (by norm_num : (1 : ℝ) < 3 / 2)
  exact ⟨n, by rwa [div_lt_iff₀ hδ, mul_comm] at hn⟩

theorem width_step {x y : ARoot} {δ : ℝ} {n : Nat} (h : 3 * (y.tb - y.ta) ≤ 2 * (x.tb - x.ta)) (hx : (x.tb : ℝ) - x.ta < δ * (3 / 2) ^ (n + 1)) :
    (y.tb : ℝ) - y.ta < δ * (3 / 2) ^ n := by
  have h' : 3 * ((y.tb : ℝ) - y.ta) ≤ 2 * ((x.tb : ℝ) - x.ta) := by exact_mod_cast h
  rw [pow_succ] at hx
  linarith

theorem ARoot.refineTo_spec {s : ℚ → ℚ → ℚ} (hs : SimplestOk s) {acc : ℚ} (ha : 0 < acc) {x : ARoot} {r : ℝ} (h : x.Is r) :
    ∃ y, x.refineTo s acc = some y ∧ y.Is r ∧ y.poly = x.poly ∧ y.wa = x.wa ∧ y.wb = x.wb ∧ x.ta ≤ y.ta ∧ y.tb ≤ x.tb ∧ y.tb - y.ta ≤ acc := by
  obtain ⟨n, hn⟩ := exists_pow_width (x.tb - x.ta) acc (by exact_mod_cast ha)
  induction n generalizing x with
  | zero =>
    rw [ARoot.refineTo, if_neg]
    · refine ⟨x, rfl, h, rfl, rfl, rfl, le_refl _, le_refl _, ?_⟩
      rw [pow_zero, mul_one] at hn
      exact_mod_cast hn.le
    · rw [pow_zero, mul_one] at hn
      have : x.tb - x.ta < acc := by exact_mod_cast hn
      exact not_lt.2 this.le
  | succ n ih =>
    rw [ARoot.refineTo]
    by_cases hc : x.tb - x.ta > acc
    · rw [if_pos hc]
      obtain ⟨y, e, y1, y2, y3, y4, y5, y6, y7⟩ := ARoot.refine_spec hs h
      obtain ⟨z, e', z1, z2, z3, z4, z5, z6, z7⟩ := ih y1 (width_step y7 hn)
      exact ⟨z, by simp only [e, Option.bind_eq_bind, Option.bind_some, e'], z1, z2.trans y2, z3.trans y3, z4.trans y4, y5.trans z5, z6.trans y6, z7⟩
    · rw [if_neg hc]
      exact ⟨x, rfl, h, rfl, rfl, rfl, le_refl _, le_refl _, not_lt.1 hc⟩

/-- Comparison with a rational number. -/
theorem ARoot.cmpRat_spec {s : ℚ → ℚ → ℚ} (hs : SimplestOk s) (q : ℚ) {x : ARoot} {r : ℝ} (h : x.Is r) :
    ∃ y, x.cmpRatMut s q = some (cmp r q, y) ∧ y.Is r ∧ y.poly = x.poly ∧ y.wa = x.wa ∧ y.wb = x.wb ∧ x.ta ≤ y.ta ∧ y.tb ≤ x.tb ∧
      (r < q → y.tb ≤ q) ∧ ((q : ℝ) < r → q ≤ y.ta) := by
  obtain ⟨n, hn⟩ := exists_pow_width (x.tb - x.ta) |r - q| (abs_pos.2 (sub_ne_zero.2 (h.ne_rat q)))
  induction n generalizing x with
  | zero =>
    rw [pow_zero, mul_one] at hn
    have ht := h.ta_lt
    have hb := h.lt_tb
    rw [ARoot.cmpRatMut]
    rcases lt_or_gt_of_ne (h.ne_rat q) with e | e
    · rw [abs_of_neg (by linarith)] at hn
      have h1 : (x.tb : ℝ) ≤ q := by linarith
      have h1' : x.tb ≤ q := by exact_mod_cast h1
      rw [if_pos h1']
      refine ⟨x, by rw [(cmp_eq_lt_iff _ _).2 e], h, rfl, rfl, rfl, le_refl _, le_refl _, fun _ => h1', fun e' => absurd e' (not_lt.2 e.le)⟩
    · rw [abs_of_pos (by linarith)] at hn
      have h1 : (q : ℝ) ≤ x.ta := by linarith
      have h1' : q ≤ x.ta := by exact_mod_cast h1
      rw [if_neg (not_le.2 (lt_of_le_of_lt h1' h.lt)), if_pos h1']
      refine ⟨x, by rw [(cmp_eq_gt_iff _ _).2 e], h, rfl, rfl, rfl, le_refl _, le_refl _, fun e' => absurd e' (not_lt.2 e.le), fun _ => h1'⟩
  | succ n ih =>
    rw [ARoot.cmpRatMut]
    have ht := h.ta_lt
    have hb := h.lt_tb
    by_cases c1 : x.tb ≤ q
    · rw [if_pos c1]
      have e : r < q := lt_of_lt_of_le hb (by exact_mod_cast c1)
      exact ⟨x, by rw [(cmp_eq_lt_iff _ _).2 e], h, rfl, rfl, rfl, le_refl _, le_refl _, fun _ => c1, fun e' => absurd e' (not_lt.2 e.le)⟩
    rw [if_neg c1]
    by_cases c2 : q ≤ x.ta
    · rw [if_pos c2]
      have e : (q : ℝ) < r := lt_of_le_of_lt (by exact_mod_cast c2) ht
      exact ⟨x, by rw [(cmp_eq_gt_iff _ _).2 e], h, rfl, rfl, rfl, le_refl _, le_refl _, fun e' => absurd e' (not_lt.2 e.le), fun _ => c2⟩
    rw [if_neg c2]
    obtain ⟨y, e, y1, y2, y3, y4, y5, y6, y7⟩ := ARoot.refine_spec hs h
    obtain ⟨z, e', z1, z2, z3, z4, z5, z6, z7⟩ := ih y1 (width_step y7 hn)
    exact ⟨z, by simp only [e, Option.bind_eq_bind, Option.bind_some, e'], z1, z2.trans y2, z3.trans y3, z4.trans y4, y5.trans z5, z6.trans y6, z7⟩

theorem ARoot.Is.poly_eq {x y : ARoot} {r : ℝ} (hx : x.Is r) (hy : y.Is r) : ipoly x.poly = ipoly y.poly := by
  have d1 := hx.degree
  have d2 := hy.degree
  exact irr_eq hx.irreducible hy.irreducible (by omega) (by omega) hx.positive hy.positive (by rw [← rv_eq]; exact hx.root) (by rw [← rv_eq]; exact hy.root)

theorem within_of_tight {x y : ARoot} {r : ℝ} (hx : x.Is r) (h1 : lowerLe y.wa x.ta = true) (h2 : leUpper x.tb y.wb = true) : Within y.wa y.wb r := by
  refine ⟨fun a ha => ?_, fun b hb => ?_⟩
  · rw [ha] at h1
    have : a ≤ x.ta := by simpa [lowerLe] using h1
    exact lt_of_le_of_lt (by exact_mod_cast this) hx.ta_lt
  · rw [hb] at h2
    have : x.tb ≤ b := by simpa [leUpper] using h2
    exact lt_of_lt_of_le hx.lt_tb (by exact_mod_cast this)

/-- The distance to the wide bounds. -/
theorem within_margin {oa ob : Option ℚ} {r : ℝ} (h : Within oa ob r) :
    ∃ δ : ℝ, 0 < δ ∧ ∀ x : ARoot, (x.ta : ℝ) < r → r < x.tb → (x.tb : ℝ) - x.ta < δ → lowerLe oa x.ta = true ∧ leUpper x.tb ob = true := by
  have h1 : ∃ δ : ℝ, 0 < δ ∧ ∀ a, oa = some a → δ ≤ r - a := by
    cases oa with
    | none => exact ⟨1, one_pos, by simp⟩
    | some a => exact ⟨r - a, sub_pos.2 (h.1 a rfl), by rintro b hb; cases hb; exact le_refl _⟩
  have h2 : ∃ δ : ℝ, 0 < δ ∧ ∀ b, ob = some b → δ ≤ b - r := by
    cases ob with
    | none => exact ⟨1, one_pos, by simp⟩
    | some b => exact ⟨b - r, sub_pos.2 (h.2 b rfl), by rintro a hb; cases hb; exact le_refl _⟩
  obtain ⟨δ1, p1, q1⟩ := h1
  obtain ⟨δ2, p2, q2⟩ := h2
  refine ⟨min δ1 δ2, lt_min p1 p2, fun x x1 x2 x3 => ⟨?_, ?_⟩⟩
  · cases oa with
    | none => rfl
    | some a =>
      have := q1 a rfl
      have h3 := min_le_left δ1 δ2
      have : (a : ℝ) ≤ x.ta := by linarith
      simpa [lowerLe] using this
  · cases ob with
    | none => rfl
    | some b =>
      have := q2 b rfl
      have h3 := min_le_right δ1 δ2
      have : (x.tb : ℝ) ≤ b := by linarith
      simpa [leUpper] using this

theorem cmpLoop_spec {s : ℚ → ℚ → ℚ} (hs : SimplestOk s) {r t : ℝ} (e : Bool) (δ : ℝ) (n : Nat) :
    ∀ x y : ARoot, x.Is r → y.Is t → (e = true ↔ ipoly x.poly = ipoly y.poly) →
      (∀ x' y' : ARoot, x'.Is r → y'.Is t → x'.wa = x.wa → x'.wb = x.wb → y'.wa = y.wa → y'.wb = y.wb → (x'.tb : ℝ) - x'.ta < δ → (y'.tb : ℝ) - y'.ta < δ →
        (r = t ∧ lowerLe y.wa x'.ta = true ∧ leUpper x'.tb y.wb = true) ∨ x'.tb ≤ y'.ta ∨ y'.tb ≤ x'.ta) →
      (x.tb : ℝ) - x.ta < δ * (3 / 2) ^ n → (y.tb : ℝ) - y.ta < δ * (3 / 2) ^ n →
      ∃ x' y', cmpLoop s e x y = some (cmp r t, x', y') ∧ x'.Is r ∧ y'.Is t := by
  induction n with
  | zero =>
    intro x y hx hy he hδ wx wy
    rw [pow_zero, mul_one] at wx wy
    rw [cmpLoop]
    by_cases c1 : (e && lowerLe y.wa x.ta && leUpper x.tb y.wb) = true
    · rw [if_pos c1]
      simp only [Bool.and_eq_true] at c1
      have hr : r = t := hy.unique r (by rw [rv_eq, ← he.1 c1.1.1, ← rv_eq]; exact hx.root) (within_of_tight hx c1.1.2 c1.2)
      exact ⟨x, y, by rw [(cmp_eq_eq_iff _ _).2 hr], hx, hy⟩
    rw [if_neg c1]
    by_cases c2 : (e && lowerLe x.wa y.ta && leUpper y.tb x.wb) = true
    · rw [if_pos c2]
      simp only [Bool.and_eq_true] at c2
      have hr : t = r := hx.unique t (by rw [rv_eq, he.1 c2.1.1, ← rv_eq]; exact hy.root) (within_of_tight hy c2.1.2 c2.2)
      exact ⟨x, y, by rw [(cmp_eq_eq_iff _ _).2 hr.symm], hx, hy⟩
    rw [if_neg c2]
    have hxt := hx.ta_lt
    have hxb := hx.lt_tb
    have hyt := hy.ta_lt
    have hyb := hy.lt_tb
    rcases hδ x y hx hy rfl rfl rfl rfl wx wy with ⟨hr, h1, h2⟩ | h | h
    · subst hr
      exact absurd (by rw [he.2 (hx.poly_eq hy), h1, h2]; rfl) c1
    · rw [if_pos h]
      have : r < t := by have : (x.tb : ℝ) ≤ y.ta := by exact_mod_cast h
                         linarith
      exact ⟨x, y, by rw [(cmp_eq_lt_iff _ _).2 this], hx, hy⟩
    · have h' : (y.tb : ℝ) ≤ x.ta := by exact_mod_cast h
      have : t < r := by linarith
      rw [if_neg, if_pos h]
      · exact ⟨x, y, by rw [(cmp_eq_gt_iff _ _).2 this], hx, hy⟩
      · intro h2
        have : (x.tb : ℝ) ≤ y.ta := by exact_mod_cast h2
        linarith
  | succ n ih =>
    intro x y hx hy he hδ wx wy
    rw [cmpLoop]
    by_cases c1 : (e && lowerLe y.wa x.ta && leUpper x.tb y.wb) = true
    · rw [if_pos c1]
      simp only [Bool.and_eq_true] at c1
      have hr : r = t := hy.unique r (by rw [rv_eq, ← he.1 c1.1.1, ← rv_eq]; exact hx.root) (within_of_tight hx c1.1.2 c1.2)
      exact ⟨x, y, by rw [(cmp_eq_eq_iff _ _).2 hr], hx, hy⟩
    rw [if_neg c1]
    by_cases c2 : (e && lowerLe x.wa y.ta && leUpper y.tb x.wb) = true
    · rw [if_pos c2]
      simp only [Bool.and_eq_true] at c2
      have hr : t = r := hx.unique t (by rw [rv_eq, he.1 c2.1.1, ← rv_eq]; exact hy.root) (within_of_tight hy c2.1.2 c2.2)
      exact ⟨x, y, by rw [(cmp_eq_eq_iff _ _).2 hr.symm], hx, hy⟩
    rw [if_neg c2]
    have hxt := hx.ta_lt
    have hxb := hx.lt_tb
    have hyt := hy.ta_lt
    have hyb := hy.lt_tb
    by_cases c3 : x.tb ≤ y.ta
    · rw [if_pos c3]
      have : r < t := by have : (x.tb : ℝ) ≤ y.ta := by exact_mod_cast c3
                         linarith
      exact ⟨x, y, by rw [(cmp_eq_lt_iff _ _).2 this], hx, hy⟩
    rw [if_neg c3]
    by_cases c4 : y.tb ≤ x.ta
    · rw [if_pos c4]
      have h' : (y.tb : ℝ) ≤ x.ta := by exact_mod_cast c4
      have : t < r := by linarith
      exact ⟨x, y, by rw [(cmp_eq_gt_iff _ _).2 this], hx, hy⟩
    rw [if_neg c4]
    obtain ⟨x', e1, x1, x2, x3, x4, -, -, x7⟩ := ARoot.refine_spec hs hx
    obtain ⟨y', e2, y1, y2, y3, y4, -, -, y7⟩ := ARoot.refine_spec hs hy
    simp only [e1, e2, Option.bind_eq_bind, Option.bind_some]
    exact ih x' y' x1 y1 (by rw [x2, y2]; exact he) (by rw [x3, x4, y3, y4]; exact hδ) (width_step x7 wx) (width_step y7 wy)

/-- Comparison of two roots. -/
theorem ARoot.cmpMut_spec {s : ℚ → ℚ → ℚ} (hs : SimplestOk s) {x y : ARoot} {r t : ℝ} (hx : x.Is r) (hy : y.Is t) :
    ∃ x' y', x.cmpMut s y = some (cmp r t, x', y') ∧ x'.Is r ∧ y'.Is t := by
  have he : intPoly.equal x.poly y.poly = true ↔ ipoly x.poly = ipoly y.poly := intGcd_models.toSemi.poly.equal _ _
  have hδ : ∃ δ : ℝ, 0 < δ ∧ ∀ x' y' : ARoot, x'.Is r → y'.Is t → x'.wa = x.wa → x'.wb = x.wb → y'.wa = y.wa → y'.wb = y.wb →
      (x'.tb : ℝ) - x'.ta < δ → (y'.tb : ℝ) - y'.ta < δ →
        (r = t ∧ lowerLe y.wa x'.ta = true ∧ leUpper x'.tb y.wb = true) ∨ x'.tb ≤ y'.ta ∨ y'.tb ≤ x'.ta := by
    by_cases hrt : r = t
    · subst hrt
      obtain ⟨δ, d1, d2⟩ := within_margin hy.within
      exact ⟨δ, d1, fun x' y' hx' hy' _ _ _ _ w1 _ => Or.inl ⟨rfl, d2 x' hx'.ta_lt hx'.lt_tb w1⟩⟩
    · refine ⟨|r - t| / 2, by have := abs_pos.2 (sub_ne_zero.2 hrt); linarith, fun x' y' hx' hy' _ _ _ _ w1 w2 => Or.inr ?_⟩
      have h1 := hx'.ta_lt
      have h2 := hx'.lt_tb
      have h3 := hy'.ta_lt
      have h4 := hy'.lt_tb
      rcases lt_or_gt_of_ne hrt with e | e
      · rw [abs_of_neg (by linarith)] at w1 w2
        left
        have : (x'.tb : ℝ) ≤ y'.ta := by linarith
        exact_mod_cast this
      · rw [abs_of_pos (by linarith)] at w1 w2
        right
        have : (y'.tb : ℝ) ≤ x'.ta := by linarith
        exact_mod_cast this
  obtain ⟨δ, d1, d2⟩ := hδ
  obtain ⟨n, hn⟩ := exists_pow_width (max ((x.tb : ℝ) - x.ta) (y.tb - y.ta)) δ d1
  exact cmpLoop_spec hs _ δ n x y hx hy he d2 (lt_of_le_of_lt (le_max_left _ _) hn) (lt_of_le_of_lt (le_max_right _ _) hn)

/-- Comparison of real algebraic numbers. -/
theorem RealAlg.cmpMut_spec {s : ℚ → ℚ → ℚ} (hs : SimplestOk s) {x y : RealAlg} {r t : ℝ} (hx : x.Is r) (hy : y.Is t) :
    ∃ x' y', x.cmpMut s y = some (_root_.cmp r t, x', y') ∧ x'.Is r ∧ y'.Is t := by
  cases x with
  | rat a =>
    cases y with
    | rat b =>
      obtain rfl : r = a := hx
      obtain rfl : t = b := hy
      refine ⟨.rat a, .rat b, ?_, rfl, rfl⟩
      rw [RealAlg.cmpMut, ← cmp_eq_compare]
      congr 2
      rcases lt_trichotomy a b with h | h | h
      · rw [(cmp_eq_lt_iff _ _).2 h, (cmp_eq_lt_iff _ _).2 (by exact_mod_cast h)]
      · rw [(cmp_eq_eq_iff _ _).2 h, (cmp_eq_eq_iff _ _).2 (by exact_mod_cast h)]
      · rw [(cmp_eq_gt_iff _ _).2 h, (cmp_eq_gt_iff _ _).2 (by exact_mod_cast h)]
    | real y =>
      obtain rfl : r = a := hx
      obtain ⟨y', e, y1, -⟩ := ARoot.cmpRat_spec hs a hy
      refine ⟨.rat a, .real y', ?_, rfl, y1⟩
      rw [RealAlg.cmpMut, e, Option.map_some, cmp_swap]
  | real x =>
    cases y with
    | rat b =>
      obtain rfl : t = b := hy
      obtain ⟨x', e, x1, -⟩ := ARoot.cmpRat_spec hs b hx
      exact ⟨.real x', .rat b, by rw [RealAlg.cmpMut, e, Option.map_some], x1, rfl⟩
    | real y =>
      obtain ⟨x', y', e, x1, y1⟩ := ARoot.cmpMut_spec hs hx hy
      exact ⟨.real x', .real y', by rw [RealAlg.cmpMut, e, Option.map_some], x1, y1⟩

theorem RealAlg.cmp_spec {s : ℚ → ℚ → ℚ} (hs : SimplestOk s) {x y : RealAlg} {r t : ℝ} (hx : x.Is r) (hy : y.Is t) :
    x.cmp s y = some (_root_.cmp r t) := by
  obtain ⟨x', y', e, -⟩ := RealAlg.cmpMut_spec hs hx hy
  rw [RealAlg.cmp, e, Option.map_some]

end Verif.RealRoots
