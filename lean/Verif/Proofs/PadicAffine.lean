import Verif.Proofs.PadicRoots

/-!
# Negation of p-adic roots, and sums and products with rational numbers
-/

namespace Verif.Padic

open Polynomial Verif.Rings Verif.RealRoots

section
variable {p : ℕ} [hp : Fact p.Prime]

theorem pv_qpoly (f : List Int) : pv p f = (qpoly f).map (Rat.castHom ℚ_[p]) := by
  rw [pv, qpoly, Polynomial.map_map, RingHom.ext_int ((Rat.castHom ℚ_[p]).comp (Int.castRingHom ℚ)) (Int.castRingHom ℚ_[p])]

theorem pv_affine {f g : List Int} {m c κ : ℚ} (h : (qpoly g).comp (C m * X + C c) = C κ * qpoly f) :
    (pv p g).comp (C (m : ℚ_[p]) * X + C (c : ℚ_[p])) = C (κ : ℚ_[p]) * pv p f := by
  have h1 := congrArg (Polynomial.map (Rat.castHom ℚ_[p])) h
  rw [Polynomial.map_comp, Polynomial.map_mul, ← pv_qpoly, ← pv_qpoly] at h1
  simpa using h1

theorem irr_of_affine {f g : List Int} (hirr : Irreducible (ipoly f)) (hd : 2 ≤ (ipoly f).natDegree) (hg : (ipoly g).IsPrimitive)
    {m c κ : ℚ} (hm : m ≠ 0) (hκ : κ ≠ 0) (h : (qpoly g).comp (C m * X + C c) = C κ * qpoly f) :
    Irreducible (ipoly g) ∧ (ipoly g).natDegree = (ipoly f).natDegree := by
  constructor
  · rw [IsPrimitive.Int.irreducible_iff_irreducible_map_cast hg]
    exact irr_affine ((IsPrimitive.Int.irreducible_iff_irreducible_map_cast (irr_primitive hirr (by omega))).1 hirr) hm hκ h
  · have h1 := congrArg natDegree h
    rwa [comp_affine_natDegree _ hm, natDegree_C_mul hκ, qpoly_natDegree, qpoly_natDegree] at h1

/-- the ball of an affine image of a root -/
theorem isolates_affine {f g : List Int} {m c κ : ℚ} (hm : m ≠ 0) (hκ : κ ≠ 0) (h : (qpoly g).comp (C m * X + C c) = C κ * qpoly f) {b : Ball} {x : ℚ_[p]}
    (hb : b.Isolates f x) : Ball.Isolates g ⟨b.a * m + c, b.v + padicValRat p m⟩ (x * (m : ℚ_[p]) + (c : ℚ_[p])) := by
  have hm' : (m : ℚ_[p]) ≠ 0 := by exact_mod_cast hm
  have hκ' : (κ : ℚ_[p]) ≠ 0 := by exact_mod_cast hκ
  have hev : ∀ y : ℚ_[p], (pv p g).eval (y * m + c) = κ * (pv p f).eval y := by
    intro y
    have := congrArg (Polynomial.eval y) (pv_affine (p := p) h)
    simp only [eval_comp, eval_add, eval_mul, eval_C, eval_X] at this
    rw [mul_comm y]; exact this
  have hmem : ∀ y : ℚ_[p], Ball.Contains ⟨b.a * m + c, b.v + padicValRat p m⟩ (y * (m : ℚ_[p]) + (c : ℚ_[p])) ↔ b.Contains y := by
    intro y
    rw [Ball.Contains, Ball.Contains]
    simp only
    push_cast
    rw [show y * m + c - (b.a * m + c) = (y - b.a) * (m : ℚ_[p]) by ring, norm_mul, norm_rat hm, neg_add, zpow_add₀ p_pos.ne',
      mul_le_mul_iff_left₀ (zpow_pos p_pos _)]
  refine ⟨by rw [hev, hb.root, mul_zero], (hmem x).2 hb.mem, fun y hy hyb => ?_⟩
  obtain ⟨w, rfl⟩ : ∃ w, y = w * (m : ℚ_[p]) + c := ⟨(y - c) / m, by field_simp; ring⟩
  rw [hev] at hy
  rw [hb.unique w ((mul_eq_zero.1 hy).resolve_left hκ') ((hmem w).1 hyb)]

theorem newton_scale {f g : List Int} {m κ : ℚ} (hm : m ≠ 0) (hκ : κ ≠ 0) (h : (qpoly g).comp (C m * X + C 0) = C κ * qpoly f) {b : Ball} {x : ℚ_[p]}
    (hb : b.Newton f x) (a : ℚ) : Ball.Newton g ⟨a, b.v + padicValRat p m⟩ (x * (m : ℚ_[p])) := by
  have hm' : (m : ℚ_[p]) ≠ 0 := by exact_mod_cast hm
  have hκ' : (κ : ℚ_[p]) ≠ 0 := by exact_mod_cast hκ
  have hp1 := pv_affine (p := p) h
  rw [Rat.cast_zero, C_0, add_zero] at hp1
  intro k
  have hk := congrArg (fun P => ‖P.coeff k‖) hp1
  simp only [comp_C_mul_X_coeff, coeff_C_mul, norm_mul, norm_pow] at hk
  have hd := congrArg (fun P => ‖(derivative P).eval x‖) hp1
  simp only [derivative_comp, derivative_C_mul, derivative_X, eval_mul, eval_C, eval_comp, eval_X, mul_one, norm_mul] at hd
  have hb' := hb k
  simp only
  rw [neg_add, zpow_add₀ p_pos.ne', ← norm_rat hm, norm_mul, mul_pow, mul_pow]
  have hmn : 0 < ‖(m : ℚ_[p])‖ := norm_pos_iff.2 hm'
  have hκn : 0 < ‖(κ : ℚ_[p])‖ := norm_pos_iff.2 hκ'
  have e1 : (p : ℝ) ^ (-b.v) * ‖(m : ℚ_[p])‖ * (‖(pv p g).coeff k‖ * (‖x‖ ^ k * ‖(m : ℚ_[p])‖ ^ k)) =
      (‖(m : ℚ_[p])‖ * ‖(κ : ℚ_[p])‖) * ((p : ℝ) ^ (-b.v) * (‖(pv p f).coeff k‖ * ‖x‖ ^ k)) := by
    linear_combination (p : ℝ) ^ (-b.v) * ‖(m : ℚ_[p])‖ * ‖x‖ ^ k * hk
  have e2 : ‖(derivative (pv p g)).eval (x * (m : ℚ_[p]))‖ * (‖x‖ ^ 2 * ‖(m : ℚ_[p])‖ ^ 2) =
      (‖(m : ℚ_[p])‖ * ‖(κ : ℚ_[p])‖) * (‖(derivative (pv p f)).eval x‖ * ‖x‖ ^ 2) := by
    rw [mul_comm x]
    linear_combination ‖(m : ℚ_[p])‖ * ‖x‖ ^ 2 * hd
  rw [e1, e2]
  exact mul_lt_mul_of_pos_left hb' (mul_pos hmn hκn)

theorem intCompose_reduced (f g : List Int) : PolyReduced (id : Int → Int) (intGcd.polyCompose f g) := by
  rw [SemiRingOps.polyCompose, SemiRingOps.polyEvaluate, List.foldl_reverse]
  cases f with
  | nil => intro c hc; simp [SemiRingOps.poly] at hc
  | cons x p =>
    rw [List.map_cons, List.foldr_cons]
    exact intGcd_models.toSemi.polyReduce_reduced _

theorem PRoot.neg_spec {r : PRoot} {x : ℚ_[p]} (h : r.Is x) : r.neg.Is (-x) ∧
    (ipoly r.neg.poly).leadingCoeff = (-1) ^ (ipoly r.poly).natDegree * (ipoly r.poly).leadingCoeff := by
  have hc : ipoly (intGcd.polyCompose r.poly [0, -1]) = (ipoly r.poly).comp (C (-1) * X + C 0) := by
    rw [show ipoly (intGcd.polyCompose r.poly [0, -1]) = (ipoly r.poly).comp (ipoly [0, -1]) from intGcd_models.toSemi.polyCompose _ _]
    congr 1
    simp [polyVal_cons]
  have hq : (qpoly (intGcd.polyCompose r.poly [0, -1])).comp (C (-1) * X + C 0) = C 1 * qpoly r.poly := by
    rw [qpoly, hc, Polynomial.map_comp, comp_assoc]
    simp
  have hprim : (ipoly (intGcd.polyCompose r.poly [0, -1])).IsPrimitive := by
    intro c hcd
    have h1 : (ipoly r.poly).IsPrimitive := h.irreducible.isPrimitive (by have := h.degree; omega)
    apply h1
    obtain ⟨q, hq⟩ := hcd
    refine ⟨q.comp (C (-1) * X + C 0), ?_⟩
    have := congrArg (fun P => Polynomial.comp P (C (-1) * X + C 0)) hq
    simp only [hc, comp_assoc, mul_comp, C_comp] at this
    rw [← this]
    simp
  obtain ⟨hi, hd⟩ := irr_of_affine h.irreducible h.degree hprim (by norm_num) one_ne_zero hq
  have hv : padicValRat p (-1) = 0 := by simp [padicValRat.neg]
  have h1 := isolates_affine (p := p) (by norm_num) one_ne_zero hq h.isolates
  have h2 := newton_scale (p := p) (by norm_num) one_ne_zero hq h.newton (-r.approx.a)
  rw [hv, add_zero] at h1 h2
  simp only [mul_neg, mul_one, add_zero, Rat.cast_neg, Rat.cast_one, Rat.cast_zero] at h1 h2
  refine ⟨⟨intCompose_reduced _ _, hi, ?_, h1, h2⟩, ?_⟩
  · change 2 ≤ (ipoly (intGcd.polyCompose r.poly [0, -1])).natDegree
    rw [hd]; exact h.degree
  · change (ipoly (intGcd.polyCompose r.poly [0, -1])).leadingCoeff = _
    rw [hc, C_0, add_zero, leadingCoeff_comp (by rw [natDegree_C_mul_X _ (by norm_num)]; norm_num), leadingCoeff_C_mul_X]
    ring

theorem ratMulPoly_spec {fac : Fac} (hf : FacOk fac) {f : List Int} (hr : PolyReduced (id : Int → Int) f) (hirr : Irreducible (ipoly f))
    (hdg : 2 ≤ (ipoly f).natDegree) {a : ℚ} (ha : a ≠ 0) :
    ∃ q κ, rootRatMulPoly fac f a = some q ∧ κ ≠ 0 ∧ PolyReduced (id : Int → Int) q ∧ Irreducible (ipoly q) ∧ (ipoly q).natDegree = (ipoly f).natDegree ∧
      (0 < (ipoly f).leadingCoeff → 0 < (ipoly q).leadingCoeff) ∧ (qpoly q).comp (C a * X + C 0) = C κ * qpoly f := by
  have h0 := hirr.ne_zero
  have hl := reduced_length hr h0
  have hdeg := intGcd_models.toSemi.polyDegree_some f h0
  set d := (ipoly f).natDegree with hd
  set s := f.mapIdx fun i c => ratDenominator a ^ i * ratNumerator a ^ (d - i) * c with hs
  have hnum : (ratNumerator a : ℚ) ≠ 0 := by rw [ratNumerator_eq]; exact_mod_cast Rat.num_ne_zero.2 ha
  have hden : (0 : ℚ) < ratDenominator a := by simp [ratDenominator, a.den_pos]
  have hfrac : (ratNumerator a : ℚ) = a * ratDenominator a := by
    rw [ratNumerator_eq]
    simp only [ratDenominator]
    push_cast
    exact (Rat.mul_den_eq_num a).symm
  have hcoeff : ∀ (l : List Int) (i : Nat), (qpoly l).coeff i = ((l.getD i 0 : Int) : ℚ) := by
    intro l i
    rw [coeff_map, show (ipoly l).coeff i = l.getD i 0 from coeff_polyVal (id : Int → Int) 0 rfl l i]
    rfl
  have hsp : (qpoly s).comp (C a * X + C 0) = C ((ratNumerator a : ℚ) ^ d) * qpoly f := by
    rw [C_0, add_zero]
    ext i
    rw [coeff_C_mul, comp_C_mul_X_coeff, hcoeff, hcoeff]
    by_cases hi : i < f.length
    · rw [List.getD_eq_getElem _ _ (by simpa [hs] using hi), List.getD_eq_getElem _ _ hi]
      simp only [hs, List.getElem_mapIdx]
      push_cast
      have h3 : (ratNumerator a : ℚ) ^ d = ratNumerator a ^ (d - i) * (a * ratDenominator a) ^ i := by
        rw [← hfrac, ← pow_add]; congr 1; omega
      rw [h3, mul_pow]
      ring
    · rw [List.getD_eq_default _ _ (by simpa [hs] using hi), List.getD_eq_default _ _ (by omega)]; simp
  have hsne : ipoly s ≠ 0 := by
    intro e
    rw [qpoly, e, Polynomial.map_zero, zero_comp] at hsp
    have : qpoly f ≠ 0 := (Polynomial.map_ne_zero_iff (RingHom.injective_int _)).2 h0
    exact (mul_ne_zero (C_ne_zero.2 (pow_ne_zero _ hnum)) this) hsp.symm
  obtain ⟨g, q, q1, q2, q3, q4, q5, q6⟩ := intGcd_models.polyFactorPrimitive s hsne
  have hg : 0 < g := lt_of_le_of_ne (int_fav_nonneg q3) (Ne.symm q2)
  have hg' : (0 : ℚ) < g := by exact_mod_cast hg
  have hsq : qpoly s = C (g : ℚ) * qpoly q := by
    rw [qpoly, q4, Polynomial.map_mul, map_C]; rfl
  have hκ : (ratNumerator a : ℚ) ^ d / g ≠ 0 := div_ne_zero (pow_ne_zero _ hnum) hg'.ne'
  have hcomp : (qpoly q).comp (C a * X + C 0) = C ((ratNumerator a : ℚ) ^ d / g) * qpoly f := by
    rw [hsq, mul_comp, C_comp] at hsp
    have : C (g : ℚ) * (C ((ratNumerator a : ℚ) ^ d / g) * qpoly f) = C ((ratNumerator a : ℚ) ^ d) * qpoly f := by
      rw [← mul_assoc, ← C_mul, mul_div_cancel₀ _ hg'.ne']
    rw [← this] at hsp
    exact mul_left_cancel₀ (C_ne_zero.2 hg'.ne') hsp
  obtain ⟨hi, hdq⟩ := irr_of_affine hirr hdg q5 ha hκ hcomp
  have hlead : 0 < (ipoly f).leadingCoeff → 0 < (ipoly q).leadingCoeff := by
    intro hpos
    have := congrArg (fun P => P.coeff d) hcomp
    simp only [C_0, add_zero, comp_C_mul_X_coeff, coeff_C_mul] at this
    have e1 : (qpoly q).coeff d = (ipoly q).leadingCoeff := by rw [← qpoly_lead, leadingCoeff, qpoly_natDegree, hdq]
    have e2 : (qpoly f).coeff d = (ipoly f).leadingCoeff := by rw [← qpoly_lead, leadingCoeff, qpoly_natDegree]
    rw [e1, e2, hfrac, mul_pow] at this
    have had : a ^ d ≠ 0 := pow_ne_zero _ ha
    have h3 : ((ipoly q).leadingCoeff : ℚ) = (ratDenominator a : ℚ) ^ d / g * (ipoly f).leadingCoeff := by
      apply mul_right_cancel₀ had
      rw [this]; ring
    have h4 : (0 : ℚ) < (ipoly q).leadingCoeff := by
      rw [h3]; exact mul_pos (div_pos (pow_pos hden _) hg') (by exact_mod_cast hpos)
    exact_mod_cast h4
  have hred : PolyReduced (id : Int → Int) q := by
    apply reduced_of_length q5.ne_zero
    rw [q6, hdq, hs, List.length_mapIdx, hl]
  refine ⟨q, _, ?_, hκ, hred, hi, hdq, hlead, hcomp⟩
  unfold rootRatMulPoly
  have e1 : (a != 0) = true := by simpa using ha
  have e2 : decide (f.length ≤ d + 1) = true := by simp [hl]
  have e3 : intGcd.polyPrimitivePart s = some (some q) := by rw [GcdOps.polyPrimitivePart, q1]; rfl
  simp only [e1, isIrreducible_ok hf hirr, hdeg, assertThat, if_true, Option.bind_eq_bind, Option.bind_some]
  change (if decide (f.length ≤ d + 1) = true then some () else none).bind _ = _
  rw [e2, if_pos rfl, Option.bind_some]
  change (intGcd.polyPrimitivePart s).bind _ = _
  rw [e3]
  simp only [Option.bind_some, isIrreducible_ok hf hi, if_true]

theorem PRoot.mulRat_spec {fac : Fac} (hf : FacOk fac) {r : PRoot} {x : ℚ_[p]} (h : r.Is x) (a : ℚ) :
    ∃ y, r.mulRat fac p a = some y ∧ y.Is (x * (a : ℚ_[p])) ∧
      (0 < (ipoly r.poly).leadingCoeff → ∀ s, y = .root s → 0 < (ipoly s.poly).leadingCoeff) := by
  by_cases ha : a = 0
  · subst ha
    exact ⟨.rat 0, by simp [PRoot.mulRat], by simp [PAlg.Is], by intro _ s e; cases e⟩
  obtain ⟨q, κ, h1, h2, h3, h4, h5, h6, h7⟩ := ratMulPoly_spec hf h.reduced h.irreducible h.degree ha
  have k1 := isolates_affine (p := p) ha h2 h7 h.isolates
  have k2 := newton_scale (p := p) ha h2 h7 h.newton (r.approx.a * a)
  simp only [add_zero, Rat.cast_zero] at k1
  refine ⟨.root ⟨q, ⟨r.approx.a * a, r.approx.v + padicValRat p a⟩⟩, ?_, ⟨h3, h4, by change 2 ≤ (ipoly q).natDegree; rw [h5]; exact h.degree, k1, k2⟩, ?_⟩
  · rw [PRoot.mulRat, if_neg ha, h1, Ball.mulRat, ratVal_eq hp.out ha]
    simp [assertThat, ha, Valu.unwrapInt]
  · intro hpos s e
    cases e
    exact h6 hpos

/-- the sum with a rational number isolates the right number -/
theorem PRoot.addRat_spec {r : PRoot} {x : ℚ_[p]} (h : r.Denotes x) (a : ℚ) :
    ∃ y, r.addRat a = some y ∧ y.Denotes (x + (a : ℚ_[p])) ∧ (0 < (ipoly r.poly).leadingCoeff → 0 < (ipoly y.poly).leadingCoeff) ∧
      y.approx = ⟨r.approx.a + a, r.approx.v⟩ := by
  obtain ⟨hr, hirr, hdg, his⟩ := h
  have hv : polyVal (id : ℚ → ℚ) (ratOps.polyCompose (r.poly.map fun c : Int => (c : ℚ)) [-a, 1]) = (qpoly r.poly).comp (C 1 * X + C (-a)) := by
    rw [ratOps_models.toSemi.polyCompose, ratVal_cast]
    congr 1
    simp [polyVal_cons, add_comm]
  have hinv : ((qpoly r.poly).comp (C 1 * X + C (-a))).comp (C 1 * X + C a) = qpoly r.poly := by
    rw [comp_assoc]
    have : (C 1 * X + C (-a) : ℚ[X]).comp (C 1 * X + C a) = X := by simp
    rw [this, comp_X]
  have h0 : qpoly r.poly ≠ 0 := (Polynomial.map_ne_zero_iff (RingHom.injective_int _)).2 hirr.ne_zero
  have hne : polyVal (id : ℚ → ℚ) (ratOps.polyCompose (r.poly.map fun c : Int => (c : ℚ)) [-a, 1]) ≠ 0 := by
    rw [hv]
    intro e
    rw [e, zero_comp] at hinv
    exact h0 hinv.symm
  obtain ⟨c, q, q1, q2, q3, q4, q5⟩ := ratFof_spec hne
  rw [hv] at q4
  have hcomp : (qpoly q).comp (C 1 * X + C a) = C c⁻¹ * qpoly r.poly := by
    have h1 := hinv
    rw [q4, mul_comp, C_comp] at h1
    rw [← h1, ← mul_assoc, ← C_mul, inv_mul_cancel₀ q2.ne', map_one, one_mul, one_mul]
  obtain ⟨hi, hdq⟩ := irr_of_affine hirr hdg q3 one_ne_zero (inv_ne_zero q2.ne') hcomp
  have hlead : 0 < (ipoly r.poly).leadingCoeff → 0 < (ipoly q).leadingCoeff := by
    intro hpos
    have := congrArg leadingCoeff hcomp
    rw [leadingCoeff_comp (by rw [natDegree_linear one_ne_zero]; simp), leadingCoeff_linear one_ne_zero, one_pow, mul_one, leadingCoeff_mul, leadingCoeff_C, qpoly_lead, qpoly_lead] at this
    have h1 : (0 : ℚ) < (ipoly r.poly).leadingCoeff := by exact_mod_cast hpos
    have h2 : (0 : ℚ) < (ipoly q).leadingCoeff := by rw [this]; exact mul_pos (inv_pos.2 q2) h1
    exact_mod_cast h2
  have hred : PolyReduced (id : Int → Int) q := by
    apply reduced_of_length q3.ne_zero
    have hr := ratCompose_reduced (r.poly.map fun c : Int => (c : ℚ)) [-a, 1]
    have hne' : ratOps.polyCompose (r.poly.map fun c : Int => (c : ℚ)) [-a, 1] ≠ [] := by intro e; rw [e] at hne; exact hne rfl
    have := (polyReduced_natDegree _ hr hne').2
    have h2 : 0 < (ratOps.polyCompose (r.poly.map fun c : Int => (c : ℚ)) [-a, 1]).length := List.length_pos_iff.2 hne'
    rw [hv, comp_affine_natDegree _ one_ne_zero, qpoly_natDegree] at this
    omega
  have k1 := isolates_affine (p := p) one_ne_zero (inv_ne_zero q2.ne') hcomp his
  simp only [mul_one, Rat.cast_one, padicValRat.one, add_zero] at k1
  refine ⟨⟨q, ⟨r.approx.a + a, r.approx.v⟩⟩, ?_, ⟨hred, hi, by change 2 ≤ (ipoly q).natDegree; rw [hdq]; exact hdg, k1⟩, hlead, rfl⟩
  unfold PRoot.addRat
  simp only [q1, Option.bind_eq_bind, Option.bind_some]
  rfl

end

end Verif.Padic
