import Verif.Proofs.RealAlgAffine
import Mathlib.Algebra.Polynomial.Reverse

/-!
# Inverses of real algebraic numbers
-/

namespace Verif.RealRoots

open Polynomial Verif.Rings

theorem irr_coeff_zero {p : List Int} (h : PolyOk p) : (ipoly p).coeff 0 ≠ 0 := by
  intro e
  apply irr_no_rat h.irreducible h.degree 0
  rw [Rat.cast_zero, ← coeff_zero_eq_eval_zero, rv_coeff', e, Int.cast_zero]

theorem natTrailing_zero {p : ℤ[X]} (h : p.coeff 0 ≠ 0) : p.natTrailingDegree = 0 :=
  Nat.le_zero.1 (natTrailingDegree_le_of_ne_zero h)

theorem reverse_natDegree' {p : ℤ[X]} (h : p.coeff 0 ≠ 0) : p.reverse.natDegree = p.natDegree := by
  rw [reverse_natDegree, natTrailing_zero h, Nat.sub_zero]

theorem reverse_reverse' {p : ℤ[X]} (h : p.coeff 0 ≠ 0) : p.reverse.reverse = p := by
  rw [reverse, reverse_natDegree' h, reverse]; exact reflect_reflect

/-- The reversal of an irreducible polynomial is irreducible. -/
theorem irr_reverse {p : ℤ[X]} (h : Irreducible p) (h0 : p.coeff 0 ≠ 0) : Irreducible p.reverse := by
  have hunit : ∀ a : ℤ[X], a.coeff 0 ≠ 0 → IsUnit a.reverse → IsUnit a := by
    intro a ha hu
    have hd : a.natDegree = 0 := by rw [← reverse_natDegree' ha]; exact natDegree_eq_zero_of_isUnit hu
    obtain ⟨c, rfl⟩ := natDegree_eq_zero.1 hd
    rwa [reverse_C] at hu
  constructor
  · intro hu
    exact h.not_isUnit (hunit p h0 hu)
  · intro a b hab
    have hc : a.coeff 0 * b.coeff 0 ≠ 0 := by
      rw [← mul_coeff_zero, ← hab, coeff_zero_reverse]
      exact leadingCoeff_ne_zero.2 h.ne_zero
    have hp : p = a.reverse * b.reverse := by
      rw [← reverse_mul_of_domain, ← hab, reverse_reverse' h0]
    rcases h.isUnit_or_isUnit hp with hu | hu
    · exact Or.inl (hunit a (left_ne_zero_of_mul hc) hu)
    · exact Or.inr (hunit b (right_ne_zero_of_mul hc) hu)

theorem ipoly_reverse {p : List Int} (hr : PolyReduced (id : Int → Int) p) : ipoly p.reverse = (ipoly p).reverse := by
  have := polyReversed_spec (id : Int → Int) p hr
  exact this

theorem rv_reverse_eval (p : List Int) (hr : PolyReduced (id : Int → Int) p) {y : ℝ} (hy : y ≠ 0) :
    (rv p.reverse).eval y⁻¹ * y ^ (ipoly p).natDegree = (rv p).eval y := by
  haveI : Invertible y := invertibleOfNonzero hy
  have h := eval₂_reverse_mul_pow (Int.castRingHom ℝ) y (ipoly p)
  rw [← eval_map, ← eval_map, ← rv_eq, ← ipoly_reverse hr, ← rv_eq, invOf_eq_inv] at h
  exact h

/-- The polynomial of the inverse. -/
theorem flip_reverse {p : List Int} (hp : PolyOk p) (dir : Bool) :
    ∃ (w : List Int) (s : ℤ), flipPoly p.reverse dir = some (w, if s = 1 then !dir else dir) ∧ PolyOk w ∧ (s = 1 ∨ s = -1) ∧
      ∀ y : ℝ, y ≠ 0 → (rv p).eval y = s * ((rv w).eval y⁻¹ * y ^ (ipoly p).natDegree) := by
  have h0 := irr_coeff_zero hp
  have hi : Irreducible (ipoly p.reverse) := by rw [ipoly_reverse hp.reduced]; exact irr_reverse hp.irreducible h0
  have hd : (ipoly p.reverse).natDegree = (ipoly p).natDegree := by rw [ipoly_reverse hp.reduced, reverse_natDegree' h0]
  have hred : PolyReduced (id : Int → Int) p.reverse := by
    apply reduced_of_length hi.ne_zero
    rw [List.length_reverse, hd]
    exact reduced_length hp.reduced hp.irreducible.ne_zero
  obtain ⟨w, w1, w2, w3, w4⟩ := flipPoly_spec hi.ne_zero hred dir
  set s : ℤ := if 0 < (ipoly p.reverse).leadingCoeff then 1 else -1 with hs
  have hs' : s = 1 ∨ s = -1 := by rw [hs]; split <;> simp
  have hsu : IsUnit (C s : ℤ[X]) := isUnit_C.2 (Int.isUnit_iff.2 hs')
  refine ⟨w, s, ?_, ⟨w2, ?_, w3, ?_⟩, hs', ?_⟩
  · rw [w1, hs]
    split <;> simp
  · rw [w4] at hi
    exact (irreducible_isUnit_mul hsu).1 hi
  · rw [w4, natDegree_C_mul (by rcases hs' with e | e <;> rw [e] <;> simp)] at hd
    rw [hd]; exact hp.degree
  · intro y hy
    rw [← rv_reverse_eval p hp.reduced hy]
    have : rv p.reverse = C (s : ℝ) * rv w := by
      rw [rv_eq, w4, Polynomial.map_mul, map_C, rv_eq]; rfl
    rw [this, eval_mul, eval_C]
    ring

theorem posLoop_spec {s : ℚ → ℚ → ℚ} (hs : SimplestOk s) {x : ARoot} {r : ℝ} (h : x.Is r) (hr : 0 < r) (h0 : 0 ≤ x.ta) :
    ∃ y, posLoop s x = some y ∧ y.Is r ∧ 0 < y.ta := by
  obtain ⟨n, hn⟩ := exists_pow_width (x.tb - x.ta) r hr
  induction n generalizing x with
  | zero =>
    rw [posLoop]
    by_cases hc : x.ta = 0
    · exfalso
      have := h.lt_tb
      rw [hc] at hn
      simp at hn
      linarith
    · rw [if_neg hc]
      exact ⟨x, rfl, h, lt_of_le_of_ne h0 (Ne.symm hc)⟩
  | succ n ih =>
    rw [posLoop]
    by_cases hc : x.ta = 0
    · rw [if_pos hc]
      obtain ⟨y, e, y1, -, -, -, y5, -, y7⟩ := ARoot.refine_spec hs h
      obtain ⟨z, e', hz⟩ := ih y1 (h0.trans y5) (width_step y7 hn)
      exact ⟨z, by simp only [e, Option.bind_eq_bind, Option.bind_some, e'], hz⟩
    · rw [if_neg hc]
      exact ⟨x, rfl, h, lt_of_le_of_ne h0 (Ne.symm hc)⟩

theorem RealAlg.neg_oneSided {x y : RealAlg} (h : x.neg = some y) (hx : x.OneSided) : y.OneSided := by
  cases x with
  | rat a => cases h; trivial
  | real x =>
    simp only [RealAlg.neg, Option.map_eq_some_iff] at h
    obtain ⟨z, hz, rfl⟩ := h
    simp only [ARoot.neg, Option.bind_eq_bind, Option.bind_eq_some_iff] at hz
    obtain ⟨pd, -, he⟩ := hz
    cases he
    rcases hx with hx | hx
    · right; simpa using hx
    · left; simpa using hx

/-- The inverse of a positive root. -/
theorem ARoot.invPos_spec {s : ℚ → ℚ → ℚ} (hs : SimplestOk s) {fac : Fac} (hf : FacOk fac) {x : ARoot} {r : ℝ} (h : x.Is r) (hr : 0 < r)
    (h0 : 0 ≤ x.ta) : ∃ y, x.invPos s fac = some y ∧ y.Is r⁻¹ ∧ 0 ≤ y.ta := by
  obtain ⟨z, z1, hz, hza⟩ := posLoop_spec hs h hr h0
  obtain ⟨w, u, w1, hw, hu, ev⟩ := flip_reverse hz.ok z.dir
  have hta := hz.ta_lt
  have htb := hz.lt_tb
  have hza' : (0 : ℝ) < z.ta := by exact_mod_cast hza
  have hzb' : (0 : ℝ) < z.tb := hr.trans htb
  have hzb : 0 < z.tb := by exact_mod_cast hzb'
  have hwb : ∀ b, z.wb = some b → 0 < b := fun b hb => by
    have := hr.trans (hz.within.2 b hb)
    exact_mod_cast this
  have hwb0 : (z.wb != some 0) = true := by
    rw [bne_iff_ne]
    intro e
    exact absurd (hwb 0 e) (lt_irrefl _)
  have hu0 : (u : ℝ) ≠ 0 := by rcases hu with e | e <;> rw [e] <;> norm_num
  have root : ∀ y : ℝ, 0 < y → (rv w).eval y = 0 → (rv z.poly).eval y⁻¹ = 0 := by
    intro y hy e
    rw [ev y⁻¹ (inv_ne_zero hy.ne'), inv_inv, e, zero_mul, mul_zero]
  have key : ARoot.Is ⟨w, z.tb⁻¹, z.ta⁻¹, some ((z.wb.map (·⁻¹)).getD 0), z.wa.bind (fun a => if 0 < a then some a⁻¹ else none),
      if u = 1 then !z.dir else z.dir⟩ r⁻¹ := by
    refine ⟨hw.reduced, hw.irreducible, hw.positive, hw.degree, ⟨?_, ?_, ?_, ?_, ?_⟩, ⟨?_, ?_⟩, ?_⟩
    · push_cast
      exact inv_strictAnti₀ hr htb
    · push_cast
      exact inv_strictAnti₀ hza' hta
    · have := ev r hr.ne'
      rw [hz.root] at this
      have h1 := mul_eq_zero.1 this.symm
      exact (mul_eq_zero.1 (h1.resolve_left hu0)).resolve_right (pow_ne_zero _ hr.ne')
    · intro y y1 y2 y3
      push_cast at y1 y2
      have hy : 0 < y := lt_of_lt_of_le (inv_pos.2 hzb') y1
      have h1 : (z.ta : ℝ) ≤ y⁻¹ := by rw [le_inv_comm₀ hza' hy]; exact y2
      have h2 : y⁻¹ ≤ (z.tb : ℝ) := by rw [inv_le_comm₀ hy hzb']; exact y1
      have := hz.tight.2.2.2.1 _ h1 h2 (root y hy y3)
      rw [← this, inv_inv]
    · have hsg := hz.tight.2.2.2.2
      have e1 := ev z.ta hza'.ne'
      have e2 := ev z.tb hzb'.ne'
      have p1 : (0 : ℝ) < (z.ta : ℝ) ^ (ipoly z.poly).natDegree := pow_pos hza' _
      have p2 : (0 : ℝ) < (z.tb : ℝ) ^ (ipoly z.poly).natDegree := pow_pos hzb' _
      change (if (if u = 1 then !z.dir else z.dir) = true then (rv w).eval ((z.tb⁻¹ : ℚ) : ℝ) < 0 ∧ 0 < (rv w).eval ((z.ta⁻¹ : ℚ) : ℝ)
        else 0 < (rv w).eval ((z.tb⁻¹ : ℚ) : ℝ) ∧ (rv w).eval ((z.ta⁻¹ : ℚ) : ℝ) < 0)
      rw [e1, e2] at hsg
      push_cast
      rw [mul_comm ((rv w).eval _), mul_comm ((rv w).eval _)] at hsg
      rcases hu with e | e
      · rw [e, Int.cast_one, one_mul, one_mul, mul_lt_zero_iff' p1, mul_lt_zero_iff' p2, mul_pos_iff_of_pos_left p1, mul_pos_iff_of_pos_left p2] at hsg
        rw [if_pos e]
        cases hd : z.dir <;> rw [hd] at hsg <;> simp at hsg ⊢ <;> exact ⟨hsg.2, hsg.1⟩
      · rw [e] at hsg
        rw [if_neg (show ¬ u = 1 by rw [e]; decide)]
        simp only [Int.cast_neg, Int.cast_one, neg_mul, one_mul, neg_lt_zero, Left.neg_pos_iff, mul_lt_zero_iff' p1, mul_lt_zero_iff' p2,
          mul_pos_iff_of_pos_left p1, mul_pos_iff_of_pos_left p2] at hsg
        cases hd : z.dir <;> rw [hd] at hsg <;> simp at hsg ⊢ <;> exact ⟨hsg.2, hsg.1⟩
    · intro a ha
      simp only [Option.some.injEq] at ha
      subst ha
      cases hb : z.wb with
      | none => simpa using hr
      | some b =>
        simp only [Option.map_some, Option.getD_some]
        push_cast
        exact inv_strictAnti₀ hr (hz.within.2 b hb)
    · intro a ha
      simp only [Option.bind_eq_some_iff] at ha
      obtain ⟨b, hb, hb2⟩ := ha
      split at hb2
      · rename_i hpos
        cases hb2
        push_cast
        exact inv_strictAnti₀ (by exact_mod_cast hpos) (hz.within.1 b hb)
      · cases hb2
    · intro y y1 y2
      have hy0 := y2.1 _ rfl
      have hy : 0 < y := by
        refine lt_of_le_of_lt ?_ hy0
        cases hb : z.wb with
        | none => simp
        | some b =>
          simp only [Option.map_some, Option.getD_some]
          have := hwb b hb
          have : (0 : ℚ) ≤ b⁻¹ := inv_nonneg.2 this.le
          exact_mod_cast this
      have := hz.unique y⁻¹ (root y hy y1) ⟨fun a ha => ?_, fun b hb => ?_⟩
      · rw [← this, inv_inv]
      · by_cases hpos : 0 < a
        · have h3 := y2.2 a⁻¹ (by simp [ha, hpos])
          push_cast at h3
          rw [lt_inv_comm₀ (by exact_mod_cast hpos) hy]
          exact h3
        · have : (a : ℝ) ≤ 0 := by exact_mod_cast not_lt.1 hpos
          exact lt_of_le_of_lt this (inv_pos.2 hy)
      · rw [hb] at hy0
        simp only [Option.map_some, Option.getD_some] at hy0
        push_cast at hy0
        have := hwb b hb
        rw [inv_lt_comm₀ hy (by exact_mod_cast this)]
        exact hy0
  refine ⟨_, ?_, key, (inv_pos.2 hzb).le⟩
  unfold ARoot.invPos
  simp only [decide_eq_true h0, z1, decide_eq_true hza, hwb0, w1, assertThat, if_true, Option.bind_eq_bind, Option.bind_some]
  exact key.checked hf

theorem RealAlg.inv_pos_spec {s : ℚ → ℚ → ℚ} (hs : SimplestOk s) {fac : Fac} (hf : FacOk fac) {x : RealAlg} {r : ℝ} (h : x.Is r) (hr : 0 < r) :
    ∃ y, x.inv s fac = some (.ok y) ∧ y.Is r⁻¹ ∧ y.OneSided := by
  cases x with
  | rat a =>
    obtain rfl : r = a := h
    have ha : 0 < a := by exact_mod_cast hr
    refine ⟨.rat a⁻¹, ?_, by simp [RealAlg.Is], trivial⟩
    rw [RealAlg.inv]
    simp only [RealAlg.cmpMut, Option.bind_eq_bind, Option.bind_some, compare_gt_iff_gt.2 ha]
  | real x =>
    obtain ⟨y, e, y1, -, -, -, -, -, -, y8⟩ := ARoot.cmpRat_spec hs 0 h
    obtain ⟨z, e2, hz, hz3⟩ := ARoot.invPos_spec hs hf y1 hr (y8 (by simpa using hr))
    refine ⟨.real z, ?_, hz, Or.inr hz3⟩
    rw [RealAlg.inv]
    simp only [RealAlg.cmpMut, e, Option.map_some, Option.bind_eq_bind, Option.bind_some, Rat.cast_zero, (cmp_eq_gt_iff _ _).2 hr, e2]

/-- Inverse of every real algebraic number. -/
theorem RealAlg.inv_spec {s : ℚ → ℚ → ℚ} (hs : SimplestOk s) {fac : Fac} (hf : FacOk fac) {x : RealAlg} {r : ℝ} (h : x.Is r) :
    (r = 0 → x.inv s fac = some (.error .divideByZero)) ∧ (r ≠ 0 → ∃ y, x.inv s fac = some (.ok y) ∧ y.Is r⁻¹ ∧ y.OneSided) := by
  obtain ⟨x', y', e, hx', -⟩ := RealAlg.cmpMut_spec hs h (y := .rat 0) (t := 0) (by simp [RealAlg.Is])
  constructor
  · rintro rfl
    rw [RealAlg.inv]
    simp only [e, Option.bind_eq_bind, Option.bind_some, (cmp_eq_eq_iff _ _).2 rfl]
  · intro hr
    rcases lt_or_gt_of_ne hr with hr | hr
    · obtain ⟨n, n1, n2⟩ := RealAlg.neg_spec hx'
      obtain ⟨y, i1, i2, i3⟩ := RealAlg.inv_pos_spec hs hf n2 (by linarith)
      obtain ⟨m, m1, m2⟩ := RealAlg.neg_spec i2
      refine ⟨m, ?_, ?_, RealAlg.neg_oneSided m1 i3⟩
      · rw [RealAlg.inv]
        simp only [e, Option.bind_eq_bind, Option.bind_some, (cmp_eq_lt_iff _ _).2 hr, n1, i1, m1]
      · rwa [inv_neg, neg_neg] at m2
    · exact RealAlg.inv_pos_spec hs hf h hr

end Verif.RealRoots
