import Verif.Proofs.PadicIsolate

/-!
# Refinement of p-adic roots
-/

namespace Verif.Padic

open Polynomial Verif.Rings Verif.RealRoots

section
variable {p : ℕ} [hp : Fact p.Prime]

theorem mapQ (f : List Int) : polyVal (id : ℚ → ℚ) (f.map fun c : Int => (c : ℚ)) = (polyVal (id : Int → Int) f).map (Int.castRingHom ℚ) :=
  polyVal_map (id : Int → Int) (id : ℚ → ℚ) (fun c : Int => (c : ℚ)) (Int.castRingHom ℚ) (fun c => by simp) f

theorem cast_eval (F : ℤ[X]) (a : ℚ) : (((F.map (Int.castRingHom ℚ)).eval a : ℚ) : ℚ_[p]) = (F.map (Int.castRingHom ℚ_[p])).eval (a : ℚ_[p]) := by
  have h := hom_eval₂ F (Int.castRingHom ℚ) (Rat.castHom ℚ_[p]) a
  rw [eval_map, eval_map]
  rw [RingHom.ext_int ((Rat.castHom ℚ_[p]).comp (Int.castRingHom ℚ)) (Int.castRingHom ℚ_[p])] at h
  exact h

theorem evalRat_cast (f : List Int) (a : ℚ) : ((evalAtRat f a : ℚ) : ℚ_[p]) = (pv p f).eval (a : ℚ_[p]) := by
  have h := ratOps_models.toSemi.polyEvaluate (f.map fun c : Int => (c : ℚ)) a
  rw [evalAtRat, ← cast_eval, ← mapQ]
  exact congrArg _ h

theorem derivRat_cast (f : List Int) (a : ℚ) :
    ((ratOps.polyEvaluate (ratOps.polyDerivative (f.map fun c : Int => (c : ℚ))) a : ℚ) : ℚ_[p]) =
      ((derivative (polyVal (id : Int → Int) f)).map (Int.castRingHom ℚ_[p])).eval (a : ℚ_[p]) := by
  have h := ratOps_models.toSemi.polyEvaluate (ratOps.polyDerivative (f.map fun c : Int => (c : ℚ))) a
  have h2 : polyVal (id : ℚ → ℚ) (ratOps.polyDerivative (f.map fun c : Int => (c : ℚ))) = (derivative (polyVal (id : Int → Int) f)).map (Int.castRingHom ℚ) := by
    rw [ratOps_models.toSemi.polyDerivative, mapQ, derivative_map]
  rw [← cast_eval, ← h2]
  exact congrArg _ h

/-- the state of the loop of `refine0` -/
structure Inv (G : ℤ[X]) (z : ℤ_[p]) (b : Ball) : Prop where
  close : ‖(z : ℚ_[p]) - (b.a : ℚ_[p])‖ ≤ (p : ℝ) ^ (-b.v)
  newton : (p : ℝ) ^ (-b.v) < ‖aeval z (derivative G)‖

theorem zpow_lt_one_iff' {v : ℤ} : (p : ℝ) ^ (-v) < 1 ↔ 1 ≤ v := by
  rw [← zpow_zero (p : ℝ), zpow_lt_zpow_iff_right₀ p_one]; omega

theorem Inv.pos {G : ℤ[X]} {z : ℤ_[p]} {b : Ball} (h : Inv G z b) : 1 ≤ b.v :=
  zpow_lt_one_iff'.1 (h.newton.trans_le (PadicInt.norm_le_one _))

/-- the centre as a `p`-adic integer -/
theorem Inv.center {G : ℤ[X]} {z : ℤ_[p]} {b : Ball} (h : Inv G z b) : ‖(b.a : ℚ_[p])‖ ≤ 1 := by
  have h1 := (zpow_lt_one_iff' (p := p)).2 h.pos
  have : (b.a : ℚ_[p]) = z - (z - b.a) := by ring
  rw [this]; exact sub_le (PadicInt.norm_le_one z) (h.close.trans h1.le)

theorem Inv.facts {G : ℤ[X]} {z : ℤ_[p]} {b : Ball} (h : Inv G z b) (hz : aeval z G = 0) :
    ‖((derivative G).map (Int.castRingHom ℚ_[p])).eval (b.a : ℚ_[p])‖ = ‖aeval z (derivative G)‖ ∧
    ‖(G.map (Int.castRingHom ℚ_[p])).eval (b.a : ℚ_[p])‖ ≤ (p : ℝ) ^ (-b.v) * ‖aeval z (derivative G)‖ ∧
    ∃ k : ℚ_[p], ‖k‖ ≤ 1 ∧ (G.map (Int.castRingHom ℚ_[p])).eval (b.a : ℚ_[p]) +
      ((derivative G).map (Int.castRingHom ℚ_[p])).eval (b.a : ℚ_[p]) * ((z : ℚ_[p]) - b.a) + k * ((z : ℚ_[p]) - b.a) ^ 2 = 0 := by
  obtain ⟨a, ha⟩ : ∃ a : ℤ_[p], (a : ℚ_[p]) = (b.a : ℚ_[p]) := ⟨⟨_, h.center⟩, rfl⟩
  have hclose := h.close
  rw [← ha] at hclose ⊢
  have hc : ‖z - a‖ ≤ (p : ℝ) ^ (-b.v) := by
    rw [PadicInt.norm_def]; push_cast; exact hclose
  rw [← coe_aeval, ← coe_aeval]
  have hd : ‖aeval a (derivative G)‖ = ‖aeval z (derivative G)‖ := by
    apply inorm_eq_of_close
    refine (aeval_sub_le _ _ _).trans_lt ?_
    rw [norm_sub_rev]; exact hc.trans_lt h.newton
  obtain ⟨k, hk⟩ := aeval_taylor G a (z - a)
  rw [add_sub_cancel, hz] at hk
  refine ⟨hd, ?_, (k : ℚ_[p]), PadicInt.norm_le_one k, ?_⟩
  · have e : aeval a G = -(aeval a (derivative G) * (z - a)) - k * (z - a) ^ 2 := by linear_combination -hk
    have hp0 : (0 : ℝ) ≤ (p : ℝ) ^ (-b.v) := (zpow_pos p_pos _).le
    have : ‖aeval a G‖ ≤ (p : ℝ) ^ (-b.v) * ‖aeval z (derivative G)‖ := by
      rw [e]
      apply isub_le
      · rw [norm_neg, norm_mul, hd, mul_comm]
        exact mul_le_mul_of_nonneg_right hc (norm_nonneg _)
      · rw [norm_mul, norm_pow, pow_two, ← mul_assoc]
        refine mul_le_mul ?_ (hc.trans h.newton.le) (norm_nonneg _) hp0
        exact (mul_le_of_le_one_left (norm_nonneg _) (PadicInt.norm_le_one _)).trans hc
    exact this
  · have := congrArg (fun w : ℤ_[p] => (w : ℚ_[p])) hk
    push_cast at this
    rw [← this]

theorem henselTest_true {fa dfa : ℚ} (h0 : dfa ≠ 0) (h : ‖(fa : ℚ_[p])‖ < ‖(dfa : ℚ_[p])‖ ^ 2) : henselTest p fa dfa = some true := by
  obtain ⟨w, hw1, hw2⟩ := ratVal_norm (p := p) fa
  rw [henselTest, hw1, ratVal_eq hp.out h0]
  simp only [Option.bind_eq_bind, Option.bind_some]
  have : (Valu.finite (padicValRat p dfa * 2)).lt w = true := by
    rw [Valu.lt_iff (p := p), hw2]
    refine h.trans_eq ?_
    rw [norm_rat h0, Valu.norm, ← zpow_natCast, ← zpow_mul]; congr 1; push_cast; ring
  rw [this]

theorem refine0Step_spec (g : List Int) {z : ℤ_[p]} (hz : aeval z (polyVal (id : Int → Int) g) = 0) {b : Ball} (h : Inv (polyVal (id : Int → Int) g) z b) (fl : Bool) :
    ∃ a', refine0Step p g b fl = some (⟨a', b.v + 1⟩, true) ∧ Inv (polyVal (id : Int → Int) g) z ⟨a', b.v + 1⟩ := by
  obtain ⟨h1, h2, k, h3, h4⟩ := h.facts hz
  set G := polyVal (id : Int → Int) g with hG
  set fa := evalAtRat g b.a with hfa
  set dfa := ratOps.polyEvaluate (ratOps.polyDerivative (g.map fun c : Int => (c : ℚ))) b.a with hdfa
  have e1 : (fa : ℚ_[p]) = (G.map (Int.castRingHom ℚ_[p])).eval (b.a : ℚ_[p]) := evalRat_cast g b.a
  have e2 : (dfa : ℚ_[p]) = ((derivative G).map (Int.castRingHom ℚ_[p])).eval (b.a : ℚ_[p]) := derivRat_cast g b.a
  rw [← e2] at h1 h4
  rw [← e1] at h2 h4
  have hpv : (0 : ℝ) < (p : ℝ) ^ (-b.v) := zpow_pos p_pos _
  have hdpos : 0 < ‖aeval z (derivative G)‖ := hpv.trans h.newton
  have hd0 : dfa ≠ 0 := by
    intro e
    rw [e] at h1
    simp only [Rat.cast_zero, norm_zero] at h1
    rw [← h1] at hdpos; exact lt_irrefl _ hdpos
  have hd0' : (dfa : ℚ_[p]) ≠ 0 := by exact_mod_cast hd0
  have ht : henselTest p fa dfa = some true := by
    apply henselTest_true hd0
    rw [h1, pow_two]
    exact h2.trans_lt (mul_lt_mul_of_pos_right h.newton hdpos)
  obtain ⟨t, ht1, ht2⟩ := ratTruncate_spec (p := p) (b.a - fa / dfa) (b.v + 1)
  refine ⟨t.rationalValue p, ?_, ?_, ?_⟩
  · rw [refine0Step]
    rw [← hfa, ← hdfa]
    have hb : (dfa != 0) = true := by simpa using hd0
    simp only [ht, ite_self, Option.bind_eq_bind, Option.bind_some, if_true, hb, assertThat, ht1]
  · have hc := ht2.close
    have hnew : ‖(z : ℚ_[p]) - ((b.a - fa / dfa : ℚ) : ℚ_[p])‖ ≤ (p : ℝ) ^ (-(b.v + 1)) := by
      have e : ((z : ℚ_[p]) - ((b.a - fa / dfa : ℚ) : ℚ_[p])) * dfa = -(k * ((z : ℚ_[p]) - b.a) ^ 2) := by
        push_cast
        field_simp
        linear_combination h4
      rw [← norm_lt_iff_le]
      have e' := congrArg norm e
      rw [norm_mul, norm_neg, norm_mul, norm_pow, h1] at e'
      by_contra hge
      rw [not_lt] at hge
      have a1 : ‖k‖ * ‖(z : ℚ_[p]) - b.a‖ ^ 2 ≤ (p : ℝ) ^ (-b.v) * (p : ℝ) ^ (-b.v) := by
        rw [pow_two]
        calc ‖k‖ * (‖(z : ℚ_[p]) - b.a‖ * ‖(z : ℚ_[p]) - b.a‖) ≤ 1 * ((p : ℝ) ^ (-b.v) * (p : ℝ) ^ (-b.v)) :=
              mul_le_mul h3 (mul_le_mul h.close h.close (norm_nonneg _) hpv.le) (by positivity) zero_le_one
          _ = _ := one_mul _
      have a2 : (p : ℝ) ^ (-b.v) * (p : ℝ) ^ (-b.v) < (p : ℝ) ^ (-b.v) * ‖aeval z (derivative G)‖ := mul_lt_mul_of_pos_left h.newton hpv
      have a3 := mul_le_mul_of_nonneg_right hge hdpos.le
      linarith
    have : (z : ℚ_[p]) - ((t.rationalValue p : ℚ) : ℚ_[p]) = (z - ((b.a - fa / dfa : ℚ) : ℚ_[p])) + (((b.a - fa / dfa : ℚ) : ℚ_[p]) - (t.rationalValue p : ℚ)) := by ring
    simp only
    rw [this]
    exact add_le hnew hc
  · exact (zpow_lt_zpow_right₀ p_one (by simp)).trans h.newton

theorem refine0Loop_spec (g : List Int) {z : ℤ_[p]} (hz : aeval z (polyVal (id : Int → Int) g) = 0) : ∀ (n : ℕ) (b : Ball) (fl : Bool) (t : ℤ),
    Inv (polyVal (id : Int → Int) g) z b → t = b.v + n → ∃ a', refine0Loop p g b fl t = some ⟨a', t⟩ ∧ Inv (polyVal (id : Int → Int) g) z ⟨a', t⟩
  | 0, b, fl, t, h, e => by
    have e' : t = b.v := by simpa using e
    subst e'
    refine ⟨b.a, ?_, h⟩
    rw [refine0Loop, if_neg (by omega)]
  | n + 1, b, fl, t, h, e => by
    obtain ⟨a', h1, h2⟩ := refine0Step_spec g hz h fl
    rw [refine0Loop, if_pos (by push_cast at e; omega), h1]
    simp only [Option.bind_eq_bind, Option.bind_some]
    exact refine0Loop_spec g hz n _ _ _ h2 (by push_cast at e ⊢; omega)

theorem ratVal_of_norm {a : ℚ} {κ : ℤ} (h : ‖(a : ℚ_[p])‖ = (p : ℝ) ^ (-κ)) : ratVal p a = some (.finite κ) := by
  have h0 : a ≠ 0 := by
    rintro rfl
    simp only [Rat.cast_zero, norm_zero] at h
    exact (zpow_pos (p_pos (p := p)) (-κ)).ne h
  rw [norm_rat h0] at h
  have := zpow_right_injective₀ p_pos p_one.ne' h
  have : padicValRat p a = κ := by simpa using this
  rw [ratVal_eq hp.out h0, this]

/-- everything that `refine` computes with the polynomial of a root -/
theorem refine_setup {fac : Fac} (hfac : FacOk fac) {f : List Int} (hirr : Irreducible (polyVal (id : Int → Int) f))
    (hd : 2 ≤ (polyVal (id : Int → Int) f).natDegree) {b : Ball} {x : ℚ_[p]} (hb : RootBall f b x) :
    ∃ (bp : BPair) (g : List Int) (z : ℤ_[p]), ratVal p b.a = some (.finite bp.bv) ∧
      (∃ cps, criticalPairs p f = some cps ∧ cps.find? (fun c => bp.bv == c.bv) = some bp) ∧ bp.normalization fac p f = some g ∧
      IsCrit p (polyVal (id : Int → Int) f) bp ∧
      NormOf (p := p) (polyVal (id : Int → Int) f) (polyVal (id : Int → Int) g) bp.bv bp.cross ∧ x = (p : ℚ_[p]) ^ bp.bv * (z : ℚ_[p]) ∧ ‖z‖ = 1 ∧
      aeval z (polyVal (id : Int → Int) g) = 0 ∧ Inv (polyVal (id : Int → Int) g) z ⟨b.a * (p : ℚ) ^ (-bp.bv), b.v - bp.bv⟩ := by
  have hx0 := zero_not_root hirr hd hb.1.root
  obtain ⟨cps, hcps, hcrit, hcomp⟩ := criticalPairs_spec (p := p) f hirr.ne_zero
  obtain ⟨bp0, hbp0, hv0⟩ := hcomp x hx0 hb.1.root
  have hsome : (cps.find? fun c => x.valuation == c.bv).isSome := by
    rw [List.find?_isSome]; exact ⟨bp0, hbp0, by simp [hv0]⟩
  obtain ⟨bp, hbp⟩ := Option.isSome_iff_exists.1 hsome
  have hmem := List.mem_of_find?_eq_some hbp
  have hbv : x.valuation = bp.bv := by simpa using List.find?_some hbp
  rw [hbv] at hbp
  obtain ⟨hc, hcr⟩ := hcrit bp hmem
  obtain ⟨g, hg, hn⟩ := normalization_spec hfac f hirr bp hc hcr
  have hxn : ‖x‖ = (p : ℝ) ^ (-bp.bv) := by rw [← hbv]; exact norm_zpow hx0
  have hzn := norm_unscale hxn
  obtain ⟨z, hz⟩ : ∃ z : ℤ_[p], (z : ℚ_[p]) = (p : ℚ_[p]) ^ (-bp.bv) * x := ⟨⟨_, hzn.le⟩, rfl⟩
  have hz1 : ‖z‖ = 1 := by rw [PadicInt.norm_def, hz]; exact hzn
  have hxz : x = (p : ℚ_[p]) ^ bp.bv * (z : ℚ_[p]) := by rw [hz, unscale]
  have hroot : aeval z (polyVal (id : Int → Int) g) = 0 := by
    rw [← PadicInt.coe_eq_zero, coe_aeval, hn.eval, ← hxz, show ((polyVal (id : Int → Int) f).map (Int.castRingHom ℚ_[p])).eval x = 0 from hb.1.root, mul_zero]
  have hnew : (p : ℝ) ^ (-(b.v - bp.bv)) < ‖aeval z (derivative (polyVal (id : Int → Int) g))‖ := by
    rw [← newton_iff hc hn hz1 b.a, ← hxz, sub_add_cancel]; exact hb.2
  have hinv : Inv (polyVal (id : Int → Int) g) z ⟨b.a * (p : ℚ) ^ (-bp.bv), b.v - bp.bv⟩ := by
    refine ⟨?_, hnew⟩
    simp only
    push_cast
    rw [hz, mul_comm, ← mul_sub_right_distrib, norm_mul, norm_p_zpow, neg_neg, neg_sub, sub_eq_add_neg bp.bv, zpow_add₀ p_pos.ne', mul_comm]
    exact mul_le_mul_of_nonneg_left hb.1.mem (zpow_pos p_pos _).le
  have hlt : ‖(b.a : ℚ_[p]) - x‖ < ‖x‖ := by
    rw [norm_sub_rev]
    refine hb.1.mem.trans_lt ?_
    rw [hxn]
    have := hinv.pos
    simp only at this
    exact zpow_lt_zpow_right₀ p_one (by omega)
  refine ⟨bp, g, z, ratVal_of_norm (by rw [norm_eq_of_close hlt, hxn]), ⟨cps, hcps, hbp⟩, hg, hc, hn, hxz, hz1, hroot, hinv⟩

theorem refine_spec {fac : Fac} (hfac : FacOk fac) {f : List Int} (hirr : Irreducible (polyVal (id : Int → Int) f))
    (hd : 2 ≤ (polyVal (id : Int → Int) f).natDegree) {b : Ball} {x : ℚ_[p]} (hb : RootBall f b x) {t : ℤ} (ht : b.v ≤ t) :
    ∃ a', refine fac p f b t = some ⟨a', t⟩ ∧ RootBall f ⟨a', t⟩ x := by
  obtain ⟨bp, g, z, h1, ⟨cps, h2, h3⟩, h4, h5, h6, hxz, hz, hroot, hinv⟩ := refine_setup hfac hirr hd hb
  obtain ⟨n, hn⟩ := Int.eq_ofNat_of_zero_le (sub_nonneg.2 ht)
  obtain ⟨c, hc1, hc2⟩ := refine0Loop_spec g hroot n _ false (t - bp.bv) hinv (by simp only; omega)
  have hmem : Ball.Contains ⟨c * (p : ℚ) ^ bp.bv, t⟩ x := by
    have := hc2.close
    rw [Ball.Contains]
    simp only at this ⊢
    push_cast
    rw [hxz, mul_comm (c : ℚ_[p]), norm_sub_scale]
    calc _ ≤ (p : ℝ) ^ (-bp.bv) * (p : ℝ) ^ (-(t - bp.bv)) := mul_le_mul_of_nonneg_left this (zpow_pos p_pos _).le
      _ = _ := by rw [← zpow_add₀ p_pos.ne']; congr 1; ring
  have hle : (p : ℝ) ^ (-t) ≤ (p : ℝ) ^ (-b.v) := zpow_le_zpow_right₀ p_one.le (by omega)
  refine ⟨c * (p : ℚ) ^ bp.bv, ?_, ⟨hb.1.root, hmem, fun y hy hyb => ?_⟩, fun k => ?_⟩
  · rw [refine, h1]
    have hpos := hinv.pos
    simp only at hpos
    simp only [Valu.unwrapInt, Option.bind_eq_bind, Option.bind_some, h2, h3, h4]
    rw [refine0]
    simp only [assertThat, show (decide (0 ≤ b.v - bp.bv)) = true from by simp; omega, if_true, Option.bind_eq_bind, Option.bind_some, hc1]
  · refine hb.1.unique y hy ?_
    rw [Ball.Contains] at hyb hmem ⊢
    have hbm := hb.1.mem
    rw [Ball.Contains] at hbm
    have : y - (b.a : ℚ_[p]) = (y - ((c * (p : ℚ) ^ bp.bv : ℚ) : ℚ_[p])) - (x - ((c * (p : ℚ) ^ bp.bv : ℚ) : ℚ_[p])) + (x - b.a) := by ring
    rw [this]
    exact add_le (sub_le (hyb.trans hle) (hmem.trans hle)) hbm
  · refine lt_of_le_of_lt ?_ (hb.2 k)
    exact mul_le_mul_of_nonneg_right hle (mul_nonneg (norm_nonneg _) (pow_nonneg (norm_nonneg _) _))

/-- the value of the polynomial at the centre of the ball of a root -/
theorem eval_center {fac : Fac} (hfac : FacOk fac) {f : List Int} (hirr : Irreducible (polyVal (id : Int → Int) f))
    (hd : 2 ≤ (polyVal (id : Int → Int) f).natDegree) {b : Ball} {x : ℚ_[p]} (hb : RootBall f b x) :
    ‖(pv p f).eval (b.a : ℚ_[p])‖ ≤ (p : ℝ) ^ (-b.v) * ‖(derivative (pv p f)).eval x‖ := by
  obtain ⟨bp, g, z, h1, _, h4, h5, h6, hxz, hz, hroot, hinv⟩ := refine_setup hfac hirr hd hb
  obtain ⟨-, h, -⟩ := hinv.facts hroot
  simp only at h
  push_cast at h
  rw [h6.eval, mul_comm (b.a : ℚ_[p]), unscale, norm_mul, norm_p_zpow, neg_neg, PadicInt.norm_def, coe_aeval, h6.eval_derivative, ← hxz, norm_mul, norm_mul,
    norm_p_zpow, norm_p_zpow, neg_neg, ← derivative_map] at h
  have hm : (0 : ℝ) < (p : ℝ) ^ bp.cross := zpow_pos p_pos _
  have e : (p : ℝ) ^ (-(b.v - bp.bv)) = (p : ℝ) ^ (-b.v) * (p : ℝ) ^ bp.bv := by rw [← zpow_add₀ p_pos.ne']; congr 1; ring
  have e2 : (p : ℝ) ^ bp.bv * (p : ℝ) ^ (-bp.bv) = 1 := by rw [← zpow_add₀ p_pos.ne']; simp
  refine le_of_mul_le_mul_left (h.trans_eq ?_) hm
  rw [e]
  linear_combination (p : ℝ) ^ (-b.v) * (p : ℝ) ^ bp.cross * ‖(derivative (pv p f)).eval x‖ * e2

theorem liftCheck_spec (y : PRoot) (h : ‖(pv p y.poly).eval (y.approx.a : ℚ_[p])‖ ≤ (p : ℝ) ^ (-y.approx.v)) : liftCheck p y = some () := by
  obtain ⟨t, h1, h2⟩ := ratTruncate_spec (p := p) (evalAtRat y.poly y.approx.a) y.approx.v
  rw [evalRat_cast] at h2
  have h3 : Trunc.Of p .zero ((pv p y.poly).eval (y.approx.a : ℚ_[p])) y.approx.v := h
  have := Trunc.Of.unique h2 h3 (by rw [sub_self, norm_zero]; exact (zpow_pos p_pos _).le)
  subst this
  rw [liftCheck, h1]
  simp [Trunc.rationalValue, assertThat]

theorem PRoot.Is.rootBall {r : PRoot} {x : ℚ_[p]} (h : r.Is x) : RootBall r.poly r.approx x := ⟨h.isolates, h.newton⟩

theorem PRoot.refine_spec {fac : Fac} (hfac : FacOk fac) (dbg : Bool) (n : ℤ) {x : ℚ_[p]} : ∀ (m : ℕ) (r : PRoot), (n - r.approx.v).toNat = m → r.Is x →
    (dbg = true → ‖(derivative (pv p r.poly)).eval x‖ ≤ 1) →
    ∃ s, r.refine dbg fac p n = some s ∧ s.poly = r.poly ∧ s.Is x ∧ s.approx.v = max r.approx.v n
  | 0, r, hm, h, _ => by
    rw [PRoot.refine, if_neg (by omega)]
    exact ⟨r, rfl, rfl, h, by omega⟩
  | m + 1, r, hm, h, hdbg => by
    obtain ⟨a', h1, h2⟩ := Padic.refine_spec hfac h.irreducible h.degree h.rootBall (t := r.approx.v + 1) (by omega)
    have hIs : PRoot.Is ⟨r.poly, ⟨a', r.approx.v + 1⟩⟩ x := ⟨h.reduced, h.irreducible, h.degree, h2.1, h2.2⟩
    obtain ⟨s, hs1, hs2, hs3, hs4⟩ := PRoot.refine_spec hfac dbg n m ⟨r.poly, ⟨a', r.approx.v + 1⟩⟩ (by simp only; omega) hIs hdbg
    refine ⟨s, ?_, hs2, hs3, by rw [hs4]; simp only; omega⟩
    rw [PRoot.refine, if_pos (by omega), h1]
    have hchk : (if dbg = true then liftCheck p ⟨r.poly, ⟨a', r.approx.v + 1⟩⟩ else some ()) = some () := by
      split
      · rename_i hd
        apply liftCheck_spec
        refine (eval_center hfac h.irreducible h.degree h2).trans ?_
        exact mul_le_of_le_one_right (zpow_pos p_pos _).le (hdbg hd)
      · rfl
    cases dbg with
    | false => simp only [Option.bind_eq_bind, Option.bind_some, hs1, Bool.false_eq_true, if_false]
    | true =>
      rw [if_pos rfl] at hchk
      simp only [Option.bind_eq_bind, Option.bind_some, hchk, hs1, if_true]

end

end Verif.Padic
