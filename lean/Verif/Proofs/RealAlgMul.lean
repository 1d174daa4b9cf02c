import Verif.Proofs.RealAlgAdd

/-!
# Products and quotients of real algebraic numbers
-/

namespace Verif.RealRoots

open Polynomial Verif.Rings

theorem RealAlg.neg_rat {x y : RealAlg} (h : x.neg = some y) : (∃ a, x = .rat a) ↔ ∃ a, y = .rat a := by
  cases x with
  | rat a => cases h; simp
  | real x =>
    simp only [RealAlg.neg, Option.map_eq_some_iff] at h
    obtain ⟨z, hz, rfl⟩ := h
    simp

/-- The intervals of a product. -/
theorem prodGen_shrinks {s : ℚ → ℚ → ℚ} (hs : SimplestOk s) {x y : ARoot} {r t : ℝ} (hx : x.Is r) (hy : y.Is t) (hx0 : 0 ≤ x.ta) (hy0 : 0 ≤ y.ta) :
    Shrinks (prodGen s x y) (r * t) := by
  have key : ∀ i, ∃ x' y' : ARoot, prodGen s x y i = some (x'.ta * y'.ta, x'.tb * y'.tb) ∧ x'.Is r ∧ y'.Is t ∧ 0 ≤ x'.ta ∧ 0 ≤ y'.ta ∧
      x'.tb ≤ x.tb ∧ y'.tb ≤ y.tb ∧
      x'.tb - x'.ta ≤ (2 / 3) ^ i * (x.tb - x.ta) ∧ y'.tb - y'.ta ≤ (2 / 3) ^ i * (y.tb - y.ta) := by
    intro i
    obtain ⟨x', x1, x2, -, -, -, x4, x5, x3⟩ := ARoot.refineN_spec hs hx i
    obtain ⟨y', y1, y2, -, -, -, y4, y5, y3⟩ := ARoot.refineN_spec hs hy i
    exact ⟨x', y', by rw [prodGen, x1, y1]; rfl, x2, y2, hx0.trans x4, hy0.trans y4, x5, y5, x3, y3⟩
  constructor
  · intro i
    obtain ⟨x', y', e, x1, y1, px, py, -⟩ := key i
    have px' : (0 : ℝ) ≤ x'.ta := by exact_mod_cast px
    have py' : (0 : ℝ) ≤ y'.ta := by exact_mod_cast py
    have a1 := x1.ta_lt
    have a2 := x1.lt_tb
    have b1 := y1.ta_lt
    have b2 := y1.lt_tb
    refine ⟨_, _, e, ?_, ?_⟩
    · push_cast
      exact mul_lt_mul'' a1 b1 px' py'
    · push_cast
      exact mul_lt_mul'' a2 b2 (by linarith) (by linarith)
  · intro ε hε
    have hxl := hx.lt
    have hyl := hy.lt
    set w : ℚ := (x.tb - x.ta) * y.tb + x.tb * (y.tb - y.ta) with hw
    have hw0 : 0 < w := by
      rw [hw]
      have h1 : 0 < (x.tb - x.ta) * y.tb := mul_pos (by linarith) (by linarith)
      have h2 : 0 < x.tb * (y.tb - y.ta) := mul_pos (by linarith) (by linarith)
      linarith
    obtain ⟨N, hN⟩ := exists_pow_lt_of_lt_one (div_pos hε (by exact_mod_cast hw0 : (0 : ℝ) < w)) (by norm_num : (2 / 3 : ℝ) < 1)
    refine ⟨N, fun i hi a b he => ?_⟩
    obtain ⟨x', y', e, x1, y1, px, py, qx, qy, e1, e2⟩ := key i
    rw [e] at he
    cases he
    have h1 : (2 / 3 : ℝ) ^ i ≤ (2 / 3) ^ N := pow_le_pow_of_le_one (by norm_num) (by norm_num) hi
    have hw' : (0 : ℝ) < w := by exact_mod_cast hw0
    rw [lt_div_iff₀ hw'] at hN
    have h2 : x'.tb * y'.tb - x'.ta * y'.ta ≤ (2 / 3) ^ i * w := by
      have lx := x1.lt
      have ly := y1.lt
      have hp : (0 : ℚ) ≤ (2 / 3) ^ i := by positivity
      have t1 : (x'.tb - x'.ta) * y'.tb ≤ ((2 / 3) ^ i * (x.tb - x.ta)) * y.tb :=
        mul_le_mul e1 qy (by linarith) (mul_nonneg hp (by linarith))
      have t2 : x'.ta * (y'.tb - y'.ta) ≤ x.tb * ((2 / 3) ^ i * (y.tb - y.ta)) :=
        mul_le_mul (by linarith) e2 (by linarith) (by linarith)
      have t3 : x'.tb * y'.tb - x'.ta * y'.ta = (x'.tb - x'.ta) * y'.tb + x'.ta * (y'.tb - y'.ta) := by ring
      rw [t3, hw]
      calc _ ≤ _ := add_le_add t1 t2
        _ = _ := by ring
    have h2' : (((x'.tb * y'.tb : ℚ) : ℝ)) - ((x'.ta * y'.ta : ℚ) : ℝ) ≤ (2 / 3) ^ i * w := by
      have := (Rat.cast_le (K := ℝ)).2 h2
      push_cast at this ⊢
      exact this
    calc _ ≤ _ := h2'
      _ ≤ (2 / 3) ^ N * (w : ℝ) := mul_le_mul_of_nonneg_right h1 hw'.le
      _ < ε := hN

/-- The product of positive numbers. -/
theorem RealAlg.mulPos_spec {s : ℚ → ℚ → ℚ} (hs : SimplestOk s) {fac : Fac} (hf : FacOk fac) {prodPoly : List Int → List Int → Option (List Int)}
    (hprod : OpPolyOk (· * ·) prodPoly) {x y : RealAlg} {r t : ℝ} (hx : x.Is r) (hy : y.Is t) (hr : 0 < r) (ht : 0 < t)
    (hside : (∃ a, x = .rat a) ∨ (∃ b, y = .rat b) ∨ (x.OneSided ∧ y.OneSided)) :
    ∃ z, RealAlg.mulPos s fac prodPoly x y = some z ∧ z.Is (r * t) := by
  cases x with
  | rat a =>
    obtain rfl : r = a := hx
    have ha : 0 < a := by exact_mod_cast hr
    cases y with
    | rat b =>
      obtain rfl : t = b := hy
      exact ⟨.rat (a * b), rfl, by simp [RealAlg.Is]⟩
    | real y =>
      obtain ⟨z, e, hz⟩ := ARoot.mulPosRat_spec hf hy ha
      exact ⟨.real z, by rw [RealAlg.mulPos, e]; rfl, by rw [mul_comm]; exact hz⟩
  | real x =>
    cases y with
    | rat b =>
      obtain rfl : t = b := hy
      have hb : 0 < b := by exact_mod_cast ht
      obtain ⟨z, e, hz⟩ := ARoot.mulPosRat_spec hf hx hb
      exact ⟨.real z, by rw [RealAlg.mulPos, e]; rfl, hz⟩
    | real y =>
      have hx' : x.Is r := hx
      have hy' : y.Is t := hy
      rcases hside with ⟨_, h⟩ | ⟨_, h⟩ | ⟨h1, h2⟩
      · cases h
      · cases h
      have pos : ∀ (z : ARoot) (u : ℝ), z.Is u → 0 < u → (RealAlg.real z).OneSided → 0 ≤ z.ta := by
        intro z u hz hu ho
        rcases ho with ho | ho
        · exfalso
          have := hz.lt_tb
          have h2 : (z.tb : ℝ) ≤ 0 := by exact_mod_cast ho
          linarith
        · exact ho
      obtain ⟨P, p1, p2, p3⟩ := hprod x.poly y.poly (rv_ne_zero.2 hx'.irreducible.ne_zero) (rv_ne_zero.2 hy'.irreducible.ne_zero)
      obtain ⟨z, e, hz⟩ := identify_spec hs hf p2 (p3 r t hx'.root hy'.root) (prodGen_shrinks hs hx' hy' (pos x r hx' hr h1) (pos y t hy' ht h2))
      exact ⟨z, by rw [RealAlg.mulPos, p1]; exact e, hz⟩

section Mul
variable {s : ℚ → ℚ → ℚ} (hs : SimplestOk s) {fac : Fac} (hf : FacOk fac) {prodPoly : List Int → List Int → Option (List Int)}
  (hprod : OpPolyOk (· * ·) prodPoly)
include hs

theorem RealAlg.cmp_zero {x : RealAlg} {r : ℝ} (hx : x.Is r) : x.cmp s (.rat 0) = some (_root_.cmp r 0) :=
  RealAlg.cmp_spec hs hx (y := .rat 0) (by simp [RealAlg.Is])

include hf hprod

theorem RealAlg.mul_spec1 {x y : RealAlg} {r t : ℝ} (hx : x.Is r) (hy : y.Is t) (hr : 0 < r) (ht : 0 < t)
    (hside : (∃ a, x = .rat a) ∨ (∃ b, y = .rat b) ∨ (x.OneSided ∧ y.OneSided)) :
    ∃ z, RealAlg.mul s fac prodPoly x y = some z ∧ z.Is (r * t) := by
  rw [RealAlg.mul]
  simp only [RealAlg.cmp_zero hs hx, RealAlg.cmp_zero hs hy, (cmp_eq_gt_iff _ _).2 hr, (cmp_eq_gt_iff _ _).2 ht, Option.bind_eq_bind, Option.bind_some]
  exact RealAlg.mulPos_spec hs hf hprod hx hy hr ht hside

theorem RealAlg.mul_spec2 {x y : RealAlg} {r t : ℝ} (hx : x.Is r) (hy : y.Is t) (hr : 0 < r)
    (hside : (∃ a, x = .rat a) ∨ (∃ b, y = .rat b) ∨ (x.OneSided ∧ y.OneSided)) :
    ∃ z, RealAlg.mul s fac prodPoly x y = some z ∧ z.Is (r * t) := by
  rcases lt_trichotomy t 0 with ht | ht | ht
  · obtain ⟨n, n1, n2⟩ := RealAlg.neg_spec hy
    obtain ⟨z, z1, z2⟩ := RealAlg.mul_spec1 hs hf hprod hx n2 hr (by linarith) (by
      rcases hside with h | h | h
      · exact Or.inl h
      · exact Or.inr (Or.inl ((RealAlg.neg_rat n1).1 h))
      · exact Or.inr (Or.inr ⟨h.1, RealAlg.neg_oneSided n1 h.2⟩))
    obtain ⟨m, m1, m2⟩ := RealAlg.neg_spec z2
    refine ⟨m, ?_, by rwa [mul_neg, neg_neg] at m2⟩
    rw [RealAlg.mul]
    simp only [RealAlg.cmp_zero hs hx, RealAlg.cmp_zero hs hy, (cmp_eq_gt_iff _ _).2 hr, (cmp_eq_lt_iff _ _).2 ht, Option.bind_eq_bind, Option.bind_some,
      n1, z1, m1]
  · subst ht
    refine ⟨.rat 0, ?_, by simp [RealAlg.Is]⟩
    rw [RealAlg.mul]
    simp only [RealAlg.cmp_zero hs hx, RealAlg.cmp_zero hs hy, (cmp_eq_gt_iff _ _).2 hr, (cmp_eq_eq_iff _ _).2 rfl, Option.bind_eq_bind, Option.bind_some]
  · exact RealAlg.mul_spec1 hs hf hprod hx hy hr ht hside

/-- Multiplication. -/
theorem RealAlg.mul_spec {x y : RealAlg} {r t : ℝ} (hx : x.Is r) (hy : y.Is t)
    (hside : (∃ a, x = .rat a) ∨ (∃ b, y = .rat b) ∨ (x.OneSided ∧ y.OneSided)) :
    ∃ z, RealAlg.mul s fac prodPoly x y = some z ∧ z.Is (r * t) := by
  rcases lt_trichotomy r 0 with hr | hr | hr
  · obtain ⟨n, n1, n2⟩ := RealAlg.neg_spec hx
    obtain ⟨z, z1, z2⟩ := RealAlg.mul_spec2 hs hf hprod n2 hy (by linarith) (by
      rcases hside with h | h | h
      · exact Or.inl ((RealAlg.neg_rat n1).1 h)
      · exact Or.inr (Or.inl h)
      · exact Or.inr (Or.inr ⟨RealAlg.neg_oneSided n1 h.1, h.2⟩))
    obtain ⟨m, m1, m2⟩ := RealAlg.neg_spec z2
    refine ⟨m, ?_, by rwa [neg_mul, neg_neg] at m2⟩
    rw [RealAlg.mul]
    simp only [RealAlg.cmp_zero hs hx, (cmp_eq_lt_iff _ _).2 hr, Option.bind_eq_bind, Option.bind_some, n1, z1, m1]
  · subst hr
    refine ⟨.rat 0, ?_, by simp [RealAlg.Is]⟩
    rw [RealAlg.mul]
    simp only [RealAlg.cmp_zero hs hx, (cmp_eq_eq_iff _ _).2 rfl, Option.bind_eq_bind, Option.bind_some]
  · exact RealAlg.mul_spec2 hs hf hprod hx hy hr hside

end Mul

/-- Division. -/
theorem RealAlg.div_spec {s : ℚ → ℚ → ℚ} (hs : SimplestOk s) {fac : Fac} (hf : FacOk fac) {prodPoly : List Int → List Int → Option (List Int)}
    (hprod : OpPolyOk (· * ·) prodPoly) {x y : RealAlg} {r t : ℝ} (hx : x.Is r) (hy : y.Is t) :
    (t = 0 → RealAlg.div s fac prodPoly x y = some (.error .divideByZero)) ∧
    (t ≠ 0 → (∃ a, x = .rat a) ∨ (∃ b, y = .rat b) ∨ x.OneSided → ∃ z, RealAlg.div s fac prodPoly x y = some (.ok z) ∧ z.Is (r / t)) := by
  obtain ⟨h1, h2⟩ := RealAlg.inv_spec hs hf hy
  constructor
  · intro ht
    unfold RealAlg.div
    simp only [h1 ht, Option.bind_eq_bind, Option.bind_some]
  · intro ht hside
    obtain ⟨i, i1, i2, i3⟩ := h2 ht
    obtain ⟨z, z1, z2⟩ := RealAlg.mul_spec hs hf hprod hx i2 (by
      rcases hside with h | ⟨b, rfl⟩ | h
      · exact Or.inl h
      · right; left
        cases i with
        | rat a => exact ⟨a, rfl⟩
        | real z =>
          exfalso
          have hb : t = b := hy
          have i4 : z.Is t⁻¹ := i2
          exact i4.ne_rat b⁻¹ (by rw [hb]; push_cast; rfl)
      · exact Or.inr (Or.inr ⟨h, i3⟩))
    refine ⟨z, ?_, by rwa [div_eq_mul_inv]⟩
    unfold RealAlg.div
    simp only [i1, z1, Option.bind_eq_bind, Option.bind_some]

end Verif.RealRoots
