import Verif.Proofs.RealShrink
import Verif.Props.Polynomial
import Mathlib.RingTheory.Polynomial.Content

/-!
# Root isolation: the parts of `real_roots_squarefree`
-/

namespace Verif.RealRoots

open Polynomial Verif.Rings

theorem mapM_length {α β : Type} (f : α → Option β) : ∀ (l : List α) (l' : List β), l.mapM f = some l' → l'.length = l.length := by
  intro l
  induction l with
  | nil => intro l' h; simp at h; subst h; rfl
  | cons x l ih =>
    intro l' h
    rw [List.mapM_cons] at h
    cases hx : f x with
    | none => rw [hx] at h; simp at h
    | some y =>
      cases hl : l.mapM f with
      | none => rw [hx, hl] at h; simp at h
      | some m =>
        rw [hx, hl] at h
        simp at h
        subst h
        simp [ih m hl]

/-! ## Squarefreeness -/

theorem onIv_inv {a w : ℝ} (hw : w ≠ 0) (g : ℝ[X]) : onIv (-a / w) (1 / w) (onIv a w g) = g := by
  unfold onIv
  rw [comp_assoc]
  have : (C w * X + C a : ℝ[X]).comp (C (1 / w) * X + C (-a / w)) = X := by
    simp only [add_comp, mul_comp, C_comp, X_comp]
    rw [mul_add, ← mul_assoc, ← C_mul, ← C_mul, mul_one_div_cancel hw, mul_div_cancel₀ _ hw, C_neg, C_1]
    ring
  rw [this, comp_X]

theorem squarefree_onIv {a w : ℝ} (hw : 0 < w) {g : ℝ[X]} (hg : Squarefree g) : Squarefree (onIv a w g) := by
  intro d hd
  have h1 : onIv (-a / w) (1 / w) d * onIv (-a / w) (1 / w) d ∣ g := by
    obtain ⟨k, hk⟩ := hd
    refine ⟨onIv (-a / w) (1 / w) k, ?_⟩
    rw [← onIv_mul, ← onIv_mul, ← hk, onIv_inv hw.ne']
  have h2 := hg _ h1
  obtain ⟨c, hc, h3⟩ := isUnit_iff.1 h2
  have h4 : onIv (-(-a / w) / (1 / w)) (1 / (1 / w)) (onIv (-a / w) (1 / w) d) = d := onIv_inv (by positivity) d
  rw [← h3] at h4
  rw [← h4]
  unfold onIv
  rw [C_comp]
  exact hc.map C

theorem squarefree_scale {κ : ℝ} (hκ : κ ≠ 0) {g : ℝ[X]} (hg : Squarefree g) : Squarefree (C κ * g) := by
  have hu : IsUnit (C κ : ℝ[X]) := isUnit_C.2 (isUnit_iff_ne_zero.2 hκ)
  intro d hd
  exact hg d (hu.dvd_mul_left.1 hd)

theorem sqfreeCheck_ok {p : List Int} (h0 : rv p ≠ 0) (hsq : Squarefree (rv p)) : sqfreeCheck p = some true := by
  have hi := rv_ne_zero.1 h0
  obtain ⟨q, q1, q2, -, q4, q5⟩ := polyPrimSquarefreePart_spec intGcd_models p hi
  rw [sqfreeCheck, q1]
  simp only [Option.bind_eq_bind, Option.bind_some]
  rw [intGcd_models.toSemi.polyDegree_some q q2.ne_zero, intGcd_models.toSemi.polyDegree_some p hi]
  simp only [Option.bind_some, Option.some_inj, beq_iff_eq]
  obtain ⟨h, hh⟩ := q4
  have hh0 : h ≠ 0 := fun e => hi (by rw [hh, e, mul_zero])
  have hd : (ipoly p).natDegree = (ipoly q).natDegree + h.natDegree := by rw [hh, natDegree_mul q2.ne_zero hh0]
  by_contra hne
  have hpos : 0 < h.natDegree := by omega
  -- an irreducible factor of positive degree
  have hpp : 0 < h.primPart.natDegree := by rw [natDegree_primPart]; exact hpos
  have hpn : ¬ IsUnit h.primPart := fun hu => by
    have := natDegree_eq_zero_of_isUnit hu
    omega
  obtain ⟨π, hπ, hπd⟩ := WfDvdMonoid.exists_irreducible_factor hpn h.primPart_ne_zero
  have hπpos : 0 < π.natDegree := by
    by_contra hc
    have h1 : π = C (π.coeff 0) := eq_C_of_natDegree_eq_zero (by omega)
    have h2 := h.isPrimitive_primPart (π.coeff 0) (by rw [← h1]; exact hπd)
    exact hπ.not_isUnit (by rw [h1]; exact h2.map C)
  have hπh : π ∣ h := hπd.trans ⟨C h.content, by conv_lhs => rw [h.eq_C_content_mul_primPart, mul_comm]⟩
  have hπp : π ∣ ipoly p := hπh.trans (Dvd.intro_left _ hh.symm)
  have hπq := q5 π hπ hπpos hπp
  have h2 : π * π ∣ ipoly p := by rw [hh]; exact mul_dvd_mul hπq hπh
  have h3 : π.map (Int.castRingHom ℝ) * π.map (Int.castRingHom ℝ) ∣ rv p := by
    rw [rv_eq, ← Polynomial.map_mul]; exact Polynomial.map_dvd _ h2
  have h4 := natDegree_eq_zero_of_isUnit (hsq _ h3)
  rw [natDegree_map_eq_of_injective (RingHom.injective_int (Int.castRingHom ℝ))] at h4
  omega

/-! ## The ends of the range -/

theorem ratNumerator_eq (x : ℚ) : ratNumerator x = x.num := by
  unfold ratNumerator
  split
  · rename_i h
    have := Rat.num_nonneg.2 h
    omega
  · rename_i h
    have : x.num < 0 := by rw [Rat.num_neg]; exact not_le.1 h
    omega

theorem linearAt_val (a : ℚ) : ipoly (linearAt a) = C ((a.den : ℤ)) * X + C (-a.num) := by
  simp [linearAt, polyVal_cons, ratNumerator_eq, ratDenominator, mul_comm X, add_comm]

theorem linearAt_primitive (a : ℚ) : (ipoly (linearAt a)).IsPrimitive := by
  rw [linearAt_val]
  intro r hr
  rw [C_dvd_iff_dvd_coeff] at hr
  have h0 : r ∣ a.num := by have := hr 0; simpa using this
  have h1 : r ∣ (a.den : ℤ) := by
    have := hr 1
    rwa [coeff_add, coeff_C_mul, coeff_X_one, coeff_C_ne_zero one_ne_zero, mul_one, add_zero] at this
  have hc := a.reduced
  have h2 : r.natAbs ∣ Nat.gcd a.num.natAbs a.den := Nat.dvd_gcd (Int.natAbs_dvd_natAbs.2 h0) (by simpa using Int.natAbs_dvd_natAbs.2 h1)
  rw [hc] at h2
  exact Int.isUnit_iff_natAbs_eq.2 (Nat.dvd_one.1 h2)

theorem linearAt_dvd {p : List Int} {a : ℚ} (h : (rv p).eval (a : ℝ) = 0) : ipoly (linearAt a) ∣ ipoly p := by
  apply intGcd_models.gauss (K := ℚ) (linearAt_primitive a)
  have hq : (toFrac ℚ (ipoly p)).eval a = 0 := by
    have h1 : ((rv p).eval (a : ℝ)) = (((toFrac ℚ (ipoly p)).eval a : ℚ) : ℝ) := by
      rw [rv_eq, toFrac, ← eq_ratCast (Rat.castHom ℝ), ← eq_ratCast (Rat.castHom ℝ) (eval a _), ← eval_map_apply, Polynomial.map_map]
      congr 2
    rw [h1] at h
    exact_mod_cast h
  have e : toFrac ℚ (ipoly (linearAt a)) = C (a.den : ℚ) * (X - C a) := by
    rw [toFrac, linearAt_val]
    have : (a.den : ℚ) * a = a.num := Rat.den_mul_eq_num a
    simp only [Polynomial.map_add, Polynomial.map_mul, map_C, map_X]
    rw [mul_sub, ← C_mul, this]
    simp [sub_eq_add_neg]
  rw [e]
  have hu : IsUnit (C (a.den : ℚ)) := isUnit_C.2 (isUnit_iff_ne_zero.2 (by exact_mod_cast a.den_ne_zero))
  exact (hu.mul_left_dvd).2 (dvd_iff_isRoot.2 hq)

theorem linearAt_rv (a : ℚ) : rv (linearAt a) = C (a.den : ℝ) * (X - C (a : ℝ)) := by
  rw [rv_eq, linearAt_val]
  have : (a.den : ℝ) * a = a.num := by exact_mod_cast Rat.den_mul_eq_num a
  simp only [Polynomial.map_add, Polynomial.map_mul, map_C, map_X]
  rw [mul_sub, ← C_mul, this]
  simp [sub_eq_add_neg]

theorem dropEnd_spec {p q : List Int} {a : ℚ} (h0 : rv q ≠ 0) (hsq : Squarefree (rv q)) (hpq : (rv p).eval (a : ℝ) = 0 ↔ (rv q).eval (a : ℝ) = 0) :
    ∃ q', dropEnd p q a = some q' ∧ rv q' ≠ 0 ∧ Squarefree (rv q') ∧ (rv q').eval (a : ℝ) ≠ 0 ∧
      ∀ x : ℝ, x ≠ a → ((rv q').eval x = 0 ↔ (rv q).eval x = 0) := by
  unfold dropEnd
  by_cases h : evalAtRat p a = 0
  · rw [if_pos h]
    have hr := hpq.1 ((evalAtRat_zero _ _).1 h)
    obtain ⟨q', e1, e2, -⟩ := intDiv_ok (rv_ne_zero.1 h0) (linearAt_dvd hr)
    have e3 : rv q = rv q' * (C (a.den : ℝ) * (X - C (a : ℝ))) := by
      rw [← linearAt_rv, rv_eq, e2, Polynomial.map_mul, ← rv_eq, ← rv_eq]
    have hd : (a.den : ℝ) ≠ 0 := by exact_mod_cast a.den_ne_zero
    have hdvd : rv q' ∣ rv q := ⟨_, e3⟩
    refine ⟨q', e1, fun e => h0 (by rw [e3, e, zero_mul]), hsq.squarefree_of_dvd hdvd, fun e => ?_, fun x hx => ?_⟩
    · obtain ⟨k, hk⟩ := dvd_iff_isRoot.2 e
      exact not_isUnit_X_sub_C (a : ℝ) (hsq _ ⟨k * C (a.den : ℝ), by rw [e3, hk]; ring⟩)
    · rw [e3, eval_mul, eval_mul]
      simp only [eval_C, eval_sub, eval_X, mul_eq_zero, hd, false_or, sub_eq_zero]
      exact ⟨Or.inl, fun h => h.resolve_right hx⟩
  · rw [if_neg h]
    exact ⟨q, rfl, h0, hsq, fun e => h ((evalAtRat_zero _ _).2 (hpq.2 e)), fun x _ => Iff.rfl⟩

/-! ## The move to the unit interval -/

theorem fof_length {p : List ℚ} {c : ℚ} {q : List Int}
    (h : polyFactorPrimitiveFof ratOps intGcd (fun c : Int => (c : ℚ)) ratNumerator ratDenominator p = some (c, q)) : q.length = p.length := by
  unfold polyFactorPrimitiveFof at h
  simp only [Option.bind_eq_bind, Option.bind_eq_some_iff] at h
  obtain ⟨d, -, s, hs, mp, hm, c', -, he⟩ := h
  have h1 := mapM_length _ _ _ hs
  have h2 : mp.2 = q := by simp at he; exact he.2
  rw [← h2, ← h1]
  unfold GcdOps.polyFactorPrimitiveUnwrap GcdOps.polyFactorPrimitive at hm
  split at hm
  · simp at hm
  · simp only [Option.bind_eq_bind, Option.bind_eq_some_iff] at hm
    obtain ⟨x, ⟨g, -, r, hr, hx⟩, hx2⟩ := hm
    have h3 := mapM_length _ _ _ hr
    simp only [Option.some_inj] at hx
    subst hx
    simp only [id, Option.some_inj] at hx2
    rw [← hx2]
    exact h3

theorem ratCompose_reduced (p q : List ℚ) : PolyReduced (id : ℚ → ℚ) (ratOps.polyCompose p q) := by
  rw [SemiRingOps.polyCompose, SemiRingOps.polyEvaluate, List.foldl_reverse]
  cases p with
  | nil => intro c hc; simp [SemiRingOps.poly] at hc
  | cons x p =>
    rw [List.map_cons, List.foldr_cons]
    exact ratOps_models.toSemi.polyReduce_reduced _

theorem ratVal_cast (p : List Int) : polyVal (id : ℚ → ℚ) (p.map fun c : Int => (c : ℚ)) = (ipoly p).map (Int.castRingHom ℚ) := by
  rw [← polyVal_comp (Int.castRingHom ℚ) (id : Int → Int) p, polyVal_map (fun a : Int => (Int.castRingHom ℚ) (id a)) (id : ℚ → ℚ) (fun c : Int => (c : ℚ)) (RingHom.id ℚ) (fun a => by simp)]
  simp

theorem transPoly_spec {q : List Int} (h0 : rv q ≠ 0) {a b : ℚ} (hab : a < b) :
    ∃ t, transPoly q a b = some t ∧ PolyReduced (id : Int → Int) t ∧ ∃ κ : ℝ, κ ≠ 0 ∧ rv t = C κ * onIv a (b - a) (rv q) := by
  have hv : polyVal (id : ℚ → ℚ) (ratOps.polyCompose (q.map fun c : Int => (c : ℚ)) [a, b - a]) =
      ((ipoly q).map (Int.castRingHom ℚ)).comp (C (b - a) * X + C a) := by
    rw [ratOps_models.toSemi.polyCompose, ratVal_cast]
    congr 1
    simp [polyVal_cons]
    ring
  have hmap : (((ipoly q).map (Int.castRingHom ℚ)).comp (C (b - a) * X + C a)).map (Rat.castHom ℝ) = onIv a (b - a) (rv q) := by
    rw [Polynomial.map_comp, Polynomial.map_map, rv_eq, onIv]
    have : (C (b - a) * X + C a : ℚ[X]).map (Rat.castHom ℝ) = C ((b : ℝ) - a) * X + C (a : ℝ) := by simp
    rw [this]
    congr 2
  have hon : onIv (a : ℝ) (b - a) (rv q) ≠ 0 := onIv_ne (sub_pos.2 (by exact_mod_cast hab)) h0
  have hne : polyVal (id : ℚ → ℚ) (ratOps.polyCompose (q.map fun c : Int => (c : ℚ)) [a, b - a]) ≠ 0 := by
    rw [hv]
    intro e
    rw [e, Polynomial.map_zero] at hmap
    exact hon hmap.symm
  obtain ⟨c, t, e1, e2, e3, e4⟩ := polyFactorPrimitiveFof_spec ratOps_models intGcd_models C64_rat_fof _ hne
  have hlen := fof_length e1
  refine ⟨t, by rw [transPoly, e1]; rfl, ?_, (c : ℝ)⁻¹, inv_ne_zero (by simpa using e2), ?_⟩
  · apply reduced_of_length e3.ne_zero
    have h1 := (polyReduced_natDegree _ (ratCompose_reduced (q.map fun c : Int => (c : ℚ)) [a, b - a]) (by
      intro e
      rw [e] at hne
      simp at hne)).2
    rw [hlen, ← h1, e4]
    congr 1
    rw [natDegree_C_mul e2, natDegree_map_eq_of_injective]
    exact RingHom.injective_int _
  · have h2 := hmap
    rw [← hv, e4, Polynomial.map_mul, map_C, Polynomial.map_map] at h2
    rw [← h2, ← mul_assoc]
    have h3 : (C ((c : ℝ)⁻¹) * C ((Rat.castHom ℝ) (id c)) : ℝ[X]) = 1 := by
      rw [← C_mul]
      have : ((c : ℝ)⁻¹) * (Rat.castHom ℝ) (id c) = 1 := inv_mul_cancel₀ (by simpa using e2)
      rw [this, C_1]
    rw [h3, one_mul, rv_eq]
    congr 1

end Verif.RealRoots
