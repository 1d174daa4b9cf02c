import Verif.Proofs.RealAlgCheck
import Mathlib.Algebra.Polynomial.AlgebraMap

/-!
# Negation, and sums and products with rational numbers
-/

namespace Verif.RealRoots

open Polynomial Verif.Rings

/-- The polynomial over the rationals. -/
noncomputable abbrev qpoly (p : List Int) : ℚ[X] := (ipoly p).map (Int.castRingHom ℚ)

theorem rv_qpoly (p : List Int) : rv p = (qpoly p).map (Rat.castHom ℝ) := by
  rw [rv_eq, qpoly, Polynomial.map_map]
  congr 1

/-- An affine change of variable keeps irreducibility. -/
theorem irr_affine {p q : ℚ[X]} (hp : Irreducible p) {m c κ : ℚ} (hm : m ≠ 0) (hκ : κ ≠ 0)
    (h : q.comp (C m * X + C c) = C κ * p) : Irreducible q := by
  have h1 : Irreducible (C κ * p) := (irreducible_isUnit_mul (isUnit_C.2 (isUnit_iff_ne_zero.2 hκ))).2 hp
  rw [← h] at h1
  haveI : Invertible m := invertibleOfNonzero hm
  have h2 : q.comp (C m * X + C c) = algEquivCMulXAddC m c q := by
    rw [algEquivCMulXAddC_apply, ← comp_eq_aeval]
  rw [h2] at h1
  exact (MulEquiv.irreducible_iff (algEquivCMulXAddC m c)).1 h1

theorem qpoly_natDegree (p : List Int) : (qpoly p).natDegree = (ipoly p).natDegree :=
  natDegree_map_eq_of_injective (RingHom.injective_int _) _

theorem qpoly_lead (p : List Int) : (qpoly p).leadingCoeff = (ipoly p).leadingCoeff := by
  rw [qpoly, leadingCoeff_map_of_injective (RingHom.injective_int _)]; rfl

theorem comp_affine_natDegree (q : ℚ[X]) {m c : ℚ} (hm : m ≠ 0) : (q.comp (C m * X + C c)).natDegree = q.natDegree := by
  rw [natDegree_comp, natDegree_linear hm, mul_one]

/-- What is needed of a polynomial for a root. -/
structure PolyOk (p : List Int) : Prop where
  reduced : PolyReduced (id : Int → Int) p
  irreducible : Irreducible (ipoly p)
  positive : 0 < (ipoly p).leadingCoeff
  degree : 2 ≤ (ipoly p).natDegree

theorem ARoot.Is.ok {x : ARoot} {r : ℝ} (h : x.Is r) : PolyOk x.poly := ⟨h.reduced, h.irreducible, h.positive, h.degree⟩

theorem PolyOk.affine {p q : List Int} (hp : PolyOk p) (hq : (ipoly q).IsPrimitive) (hr : PolyReduced (id : Int → Int) q)
    (hl : 0 < (ipoly q).leadingCoeff) {m c κ : ℚ} (hm : m ≠ 0) (hκ : κ ≠ 0) (h : (qpoly q).comp (C m * X + C c) = C κ * qpoly p) : PolyOk q := by
  refine ⟨hr, ?_, hl, ?_⟩
  · rw [IsPrimitive.Int.irreducible_iff_irreducible_map_cast hq]
    have hd := hp.degree
    exact irr_affine ((IsPrimitive.Int.irreducible_iff_irreducible_map_cast (irr_primitive hp.irreducible (by omega))).1 hp.irreducible) hm hκ h
  · have h1 := congrArg natDegree h
    rw [comp_affine_natDegree _ hm, natDegree_C_mul hκ, qpoly_natDegree, qpoly_natDegree] at h1
    rw [h1]; exact hp.degree

theorem eval_affine {p q : List Int} {m c κ : ℚ} (h : (qpoly q).comp (C m * X + C c) = C κ * qpoly p) (y : ℝ) :
    (rv q).eval (y * m + c) = κ * (rv p).eval y := by
  have h1 := congrArg (fun f => (f.map (Rat.castHom ℝ)).eval y) h
  simp only [Polynomial.map_comp, Polynomial.map_add, Polynomial.map_mul, map_C, map_X, ← rv_qpoly, eval_comp, eval_add, eval_mul, eval_C, eval_X] at h1
  rw [mul_comm y]
  exact h1

theorem mul_lt_zero_iff' {κ a : ℝ} (hκ : 0 < κ) : κ * a < 0 ↔ a < 0 := by
  constructor
  · intro h; by_contra hc; exact absurd h (not_lt.2 (mul_nonneg hκ.le (not_lt.1 hc)))
  · exact fun h => mul_neg_of_pos_of_neg hκ h

/-- An increasing affine change of variable. -/
theorem ARoot.Is.affine {x : ARoot} {r : ℝ} (h : x.Is r) {q : List Int} (hq : PolyOk q) {m c κ : ℚ} (hm : 0 < m) (hκ : 0 < κ)
    (e : (qpoly q).comp (C m * X + C c) = C κ * qpoly x.poly) :
    ARoot.Is ⟨q, x.ta * m + c, x.tb * m + c, x.wa.map (· * m + c), x.wb.map (· * m + c), x.dir⟩ (r * m + c) := by
  have hm' : (0 : ℝ) < m := by exact_mod_cast hm
  have hκ' : (0 : ℝ) < κ := by exact_mod_cast hκ
  have ev := eval_affine e
  have inv : ∀ y : ℝ, ((y - c) / m) * m + c = y := fun y => by field_simp; ring
  have root : ∀ y : ℝ, (rv q).eval y = 0 → (rv x.poly).eval ((y - c) / m) = 0 := by
    intro y hy
    rw [← inv y, ev] at hy
    exact (mul_eq_zero.1 hy).resolve_left hκ'.ne'
  have le1 : ∀ a : ℚ, ∀ y : ℝ, ((a * m + c : ℚ) : ℝ) ≤ y → (a : ℝ) ≤ (y - c) / m := fun a y hy => by
    rw [le_div_iff₀ hm']; push_cast at hy; linarith
  have le2 : ∀ a : ℚ, ∀ y : ℝ, y ≤ ((a * m + c : ℚ) : ℝ) → (y - c) / m ≤ a := fun a y hy => by
    rw [div_le_iff₀ hm']; push_cast at hy; linarith
  have lt1 : ∀ a : ℚ, ∀ y : ℝ, ((a * m + c : ℚ) : ℝ) < y → (a : ℝ) < (y - c) / m := fun a y hy => by
    rw [lt_div_iff₀ hm']; push_cast at hy; linarith
  have lt2 : ∀ a : ℚ, ∀ y : ℝ, y < ((a * m + c : ℚ) : ℝ) → (y - c) / m < a := fun a y hy => by
    rw [div_lt_iff₀ hm']; push_cast at hy; linarith
  have t1 : ∀ a : ℚ, (a : ℝ) < r → ((a * m + c : ℚ) : ℝ) < r * m + c := fun a ha => by push_cast; nlinarith
  have t2 : ∀ a : ℚ, r < (a : ℝ) → r * m + c < ((a * m + c : ℚ) : ℝ) := fun a ha => by push_cast; nlinarith
  have back : ∀ y : ℝ, (y - c) / m = r → y = r * m + c := fun y hy => by rw [← hy, inv]
  have sg : ∀ a : ℚ, (rv q).eval ((a * m + c : ℚ) : ℝ) = κ * (rv x.poly).eval (a : ℝ) := fun a => by
    rw [← ev]; push_cast; rfl
  refine ⟨hq.reduced, hq.irreducible, hq.positive, hq.degree, ⟨t1 _ h.ta_lt, t2 _ h.lt_tb, ?_, ?_, ?_⟩, ⟨?_, ?_⟩, ?_⟩
  · change (rv q).eval _ = 0
    rw [ev, h.root, mul_zero]
  · intro y y1 y2 y3
    exact back y (h.tight.2.2.2.1 _ (le1 _ _ y1) (le2 _ _ y2) (root y y3))
  · have := h.tight.2.2.2.2
    change (if x.dir then (rv q).eval ((x.ta * m + c : ℚ) : ℝ) < 0 ∧ 0 < (rv q).eval ((x.tb * m + c : ℚ) : ℝ)
      else 0 < (rv q).eval ((x.ta * m + c : ℚ) : ℝ) ∧ (rv q).eval ((x.tb * m + c : ℚ) : ℝ) < 0)
    rw [sg, sg, mul_lt_zero_iff' hκ', mul_lt_zero_iff' hκ', mul_pos_iff_of_pos_left hκ', mul_pos_iff_of_pos_left hκ']
    exact this
  · intro a ha
    simp only [Option.map_eq_some_iff] at ha
    obtain ⟨b, hb, rfl⟩ := ha
    exact t1 b (h.within.1 b hb)
  · intro a ha
    simp only [Option.map_eq_some_iff] at ha
    obtain ⟨b, hb, rfl⟩ := ha
    exact t2 b (h.within.2 b hb)
  · intro y y1 y2
    refine back y (h.unique _ (root y y1) ⟨fun a ha => lt1 a y (y2.1 _ ?_), fun a ha => lt2 a y (y2.2 _ ?_)⟩)
    · simp [ha]
    · simp [ha]

/-- The change of variable `x ↦ -x`. -/
theorem ARoot.Is.negate {x : ARoot} {r : ℝ} (h : x.Is r) {q : List Int} (hq : PolyOk q) {κ : ℚ} (hκ : κ ≠ 0)
    (e : (qpoly q).comp (C (-1) * X + C 0) = C κ * qpoly x.poly) :
    ARoot.Is ⟨q, -x.tb, -x.ta, x.wb.map (- ·), x.wa.map (- ·), if 0 < κ then !x.dir else x.dir⟩ (-r) := by
  have ev : ∀ y : ℝ, (rv q).eval (-y) = κ * (rv x.poly).eval y := by
    intro y
    have := eval_affine e y
    simpa using this
  have hκ' : (κ : ℝ) ≠ 0 := by exact_mod_cast hκ
  have root : ∀ y : ℝ, (rv q).eval y = 0 → (rv x.poly).eval (-y) = 0 := by
    intro y hy
    rw [← neg_neg y, ev] at hy
    exact (mul_eq_zero.1 hy).resolve_left hκ'
  refine ⟨hq.reduced, hq.irreducible, hq.positive, hq.degree, ⟨?_, ?_, ?_, ?_, ?_⟩, ⟨?_, ?_⟩, ?_⟩
  · push_cast; exact neg_lt_neg h.lt_tb
  · push_cast; exact neg_lt_neg h.ta_lt
  · change (rv q).eval _ = 0
    rw [ev, h.root, mul_zero]
  · intro y y1 y2 y3
    push_cast at y1 y2
    have := h.tight.2.2.2.1 (-y) (by linarith) (by linarith) (root y y3)
    linarith
  · have := h.tight.2.2.2.2
    have s1 : (rv q).eval ((-x.ta : ℚ) : ℝ) = κ * (rv x.poly).eval (x.ta : ℝ) := by rw [← ev]; push_cast; rfl
    have s2 : (rv q).eval ((-x.tb : ℚ) : ℝ) = κ * (rv x.poly).eval (x.tb : ℝ) := by rw [← ev]; push_cast; rfl
    change (if (if 0 < κ then !x.dir else x.dir) = true then (rv q).eval ((-x.tb : ℚ) : ℝ) < 0 ∧ 0 < (rv q).eval ((-x.ta : ℚ) : ℝ)
      else 0 < (rv q).eval ((-x.tb : ℚ) : ℝ) ∧ (rv q).eval ((-x.ta : ℚ) : ℝ) < 0)
    rw [s1, s2]
    by_cases hk : 0 < κ
    · have hk' : (0 : ℝ) < κ := by exact_mod_cast hk
      rw [mul_lt_zero_iff' hk', mul_lt_zero_iff' hk', mul_pos_iff_of_pos_left hk', mul_pos_iff_of_pos_left hk', if_pos hk]
      cases hd : x.dir <;> rw [hd] at this <;> simp at this ⊢ <;> exact ⟨this.2, this.1⟩
    · have hk' : (κ : ℝ) < 0 := by
        have : κ < 0 := lt_of_le_of_ne (not_lt.1 hk) hκ
        exact_mod_cast this
      rw [if_neg hk]
      cases hd : x.dir <;> rw [hd] at this <;> simp only [Bool.false_eq_true, if_false, if_true] at this ⊢
      · exact ⟨mul_pos_of_neg_of_neg hk' this.2, mul_neg_of_neg_of_pos hk' this.1⟩
      · exact ⟨mul_neg_of_neg_of_pos hk' this.2, mul_pos_of_neg_of_neg hk' this.1⟩
  · intro a ha
    simp only [Option.map_eq_some_iff] at ha
    obtain ⟨b, hb, rfl⟩ := ha
    push_cast
    exact neg_lt_neg (h.within.2 b hb)
  · intro a ha
    simp only [Option.map_eq_some_iff] at ha
    obtain ⟨b, hb, rfl⟩ := ha
    push_cast
    exact neg_lt_neg (h.within.1 b hb)
  · intro y y1 y2
    have := h.unique (-y) (root y y1) ⟨fun a ha => ?_, fun a ha => ?_⟩
    · linarith
    · have := y2.2 (-a) (by simp [ha])
      push_cast at this
      linarith
    · have := y2.1 (-a) (by simp [ha])
      push_cast at this
      linarith

/-- `flipPoly` of a polynomial up to sign. -/
theorem flipPoly_spec {p : List Int} (h : ipoly p ≠ 0) (hr : PolyReduced (id : Int → Int) p) (dir : Bool) :
    ∃ w, flipPoly p dir = some (w, if 0 < (ipoly p).leadingCoeff then !dir else dir) ∧ PolyReduced (id : Int → Int) w ∧
      0 < (ipoly w).leadingCoeff ∧ ipoly p = C (if 0 < (ipoly p).leadingCoeff then 1 else -1) * ipoly w := by
  obtain ⟨u, w, w1, w2, w3, w4, -⟩ := intFavAssoc_spec h
  have hl : (ipoly p).leadingCoeff ≠ 0 := leadingCoeff_ne_zero.2 h
  refine ⟨w, ?_, intFavAssoc_reduced h hr w1, w4, ?_⟩
  · unfold flipPoly
    simp only [w1, Option.bind_eq_bind, Option.bind_some]
    by_cases hp : 0 < (ipoly p).leadingCoeff
    · rw [if_neg (not_lt.2 hp.le)] at w2
      rw [w2, if_pos ((intPoly_models.toSemi.equal _ _).2 rfl), if_pos hp]
    · rw [if_pos (by omega)] at w2
      rw [w2, if_neg, if_pos, if_neg hp]
      · exact (intPoly_models.toSemi.equal _ _).2 (by rw [show intGcd.polyNeg [1] = [-1] from rfl])
      · rw [intPoly_models.toSemi.equal]
        intro e
        have := congrArg (eval 0) e
        simp [polyVal_cons] at this
  · rw [w2] at w3
    by_cases hp : 0 < (ipoly p).leadingCoeff
    · rw [if_neg (not_lt.2 hp.le)] at w3; rw [if_pos hp]; exact w3
    · rw [if_pos (by omega)] at w3; rw [if_neg hp]; exact w3

theorem int_fav_nonneg {n : Int} (h : intGcd.toFavOps.IsFav (id : Int → Int) n) : 0 ≤ n := by
  have h1 := h n (intFav n).1 (intFav n).2 rfl rfl
  have h2 : (intFav n).2 = n := h1
  rw [← h2]
  unfold intFav
  split
  · simp
  · split <;> simp <;> omega

theorem intLcm_pos {x y : Int} (hx : 0 < x) (hy : 0 < y) : ∃ m, intGcd.lcm x y = some m ∧ 0 < m := by
  obtain ⟨g, g1, g2, g3⟩ := intGcd_models.gcd x y
  have hg : 0 ≤ g := int_fav_nonneg g3
  have gx : g ∣ x := g2.1 _ (by simp)
  have hg0 : g ≠ 0 := fun e => by rw [e, zero_dvd_iff] at gx; omega
  have hd : g ∣ x * y := gx.mul_right y
  obtain ⟨q, q1, q2⟩ := intGcd_models.toDomain.div_unwrap (intGcd.mul x y) g hg0 hd
  have q2' : x * y = q * g := q2
  refine ⟨q, ?_, ?_⟩
  · rw [GcdOps.lcm, if_neg, g1]
    · exact q1
    · rw [Bool.and_eq_true, intGcd_models.toSemi.isZero]
      exact fun e => hx.ne' e.1
  · have : 0 < q * g := by rw [← q2']; exact mul_pos hx hy
    exact pos_of_mul_pos_left this hg

theorem intLcmList_pos (l : List Int) (h : ∀ x ∈ l, 0 < x) (c : Int) (hc : 0 < c) : ∃ m, l.foldlM intGcd.lcm c = some m ∧ 0 < m := by
  induction l generalizing c with
  | nil => exact ⟨c, rfl, hc⟩
  | cons x t ih =>
    obtain ⟨m, m1, m2⟩ := intLcm_pos hc (h x (by simp))
    obtain ⟨k, k1, k2⟩ := ih (fun y hy => h y (by simp [hy])) m m2
    exact ⟨k, by rw [List.foldlM_cons, m1]; exact k1, k2⟩

/-- The primitive integer polynomial of a rational polynomial, with a positive factor. -/
theorem ratFof_spec {p : List ℚ} (hp : polyVal (id : ℚ → ℚ) p ≠ 0) :
    ∃ c q, polyFactorPrimitiveFof ratOps intGcd (fun c : Int => (c : ℚ)) ratNumerator ratDenominator p = some (c, q) ∧ 0 < c ∧
      (ipoly q).IsPrimitive ∧ polyVal (id : ℚ → ℚ) p = C c * qpoly q ∧ q.length = p.length := by
  obtain ⟨c, q, h1, h2, h3, h4⟩ := polyFactorPrimitiveFof_spec ratOps_models intGcd_models C64_rat_fof p hp
  refine ⟨c, q, h1, ?_, h3, h4, fof_length h1⟩
  unfold polyFactorPrimitiveFof at h1
  simp only [Option.bind_eq_bind, Option.bind_eq_some_iff] at h1
  obtain ⟨d, hd, s, hs, mp, hm, c', hc, he⟩ := h1
  simp only [Option.some.injEq, Prod.mk.injEq] at he
  obtain ⟨rfl, rfl⟩ := he
  obtain ⟨m, m1, m2⟩ := intLcmList_pos (p.map ratDenominator) (by
    intro x hx
    rw [List.mem_map] at hx
    obtain ⟨y, -, rfl⟩ := hx
    simp [ratDenominator, y.den_pos]) 1 (by norm_num)
  have hd' : d = m := by
    have : (p.map ratDenominator).foldlM intGcd.lcm 1 = some d := hd
    rw [m1] at this
    exact (Option.some.inj this).symm
  subst hd'
  have hs0 : ipoly s ≠ 0 := by
    intro e
    have : intGcd.polyFactorPrimitiveUnwrap s = none := by
      rw [GcdOps.polyFactorPrimitiveUnwrap, intGcd_models.polyFactorPrimitive_zero s e]; rfl
    rw [this] at hm
    cases hm
  obtain ⟨g, s', g1, g2, g3, -⟩ := intGcd_models.polyFactorPrimitiveUnwrap s hs0
  rw [g1] at hm
  cases hm
  have hg : 0 ≤ g := int_fav_nonneg g3
  have hg' : 0 < g := lt_of_le_of_ne hg (Ne.symm g2)
  obtain ⟨q1, e1, e2⟩ := ratOps_models.div_unwrap (g : ℚ) (d : ℚ) (by simpa using m2.ne') (by
    refine ⟨(g : ℚ) / d, ?_⟩
    have : (d : ℚ) ≠ 0 := by exact_mod_cast m2.ne'
    simp only [id]
    field_simp)
  rw [e1] at hc
  cases hc
  simp only [id] at e2
  have h5 : (0 : ℚ) < g := by exact_mod_cast hg'
  have h6 : (0 : ℚ) < d := by exact_mod_cast m2
  rw [e2] at h5
  exact pos_of_mul_pos_left h5 h6.le

/-- The sum with a rational number. -/
theorem ARoot.addRat_spec {fac : Fac} (hf : FacOk fac) {x : ARoot} {r : ℝ} (h : x.Is r) (a : ℚ) :
    ∃ y, x.addRat fac a = some y ∧ y.Is (r + a) := by
  have hv : polyVal (id : ℚ → ℚ) (ratOps.polyCompose (x.poly.map fun c : Int => (c : ℚ)) [-a, 1]) = (qpoly x.poly).comp (C 1 * X + C (-a)) := by
    rw [ratOps_models.toSemi.polyCompose, ratVal_cast]
    congr 1
    simp [polyVal_cons, add_comm]
  have hinv : ((qpoly x.poly).comp (C 1 * X + C (-a))).comp (C 1 * X + C a) = qpoly x.poly := by
    rw [comp_assoc]
    have : (C 1 * X + C (-a) : ℚ[X]).comp (C 1 * X + C a) = X := by simp
    rw [this, comp_X]
  have h0 : qpoly x.poly ≠ 0 := (Polynomial.map_ne_zero_iff (RingHom.injective_int _)).2 h.irreducible.ne_zero
  have hne : polyVal (id : ℚ → ℚ) (ratOps.polyCompose (x.poly.map fun c : Int => (c : ℚ)) [-a, 1]) ≠ 0 := by
    rw [hv]
    intro e
    rw [e, zero_comp] at hinv
    exact h0 hinv.symm
  obtain ⟨c, q, q1, q2, q3, q4, q5⟩ := ratFof_spec hne
  rw [hv] at q4
  have hcomp : (qpoly q).comp (C 1 * X + C a) = C c⁻¹ * qpoly x.poly := by
    have h1 := hinv
    rw [q4, mul_comp, C_comp] at h1
    rw [← h1, ← mul_assoc, ← C_mul, inv_mul_cancel₀ q2.ne', map_one, one_mul, one_mul]
  have hdeg : (ipoly q).natDegree = (ipoly x.poly).natDegree := by
    have := congrArg natDegree hcomp
    rwa [comp_affine_natDegree _ one_ne_zero, natDegree_C_mul (inv_ne_zero q2.ne'), qpoly_natDegree, qpoly_natDegree] at this
  have hlead : 0 < (ipoly q).leadingCoeff := by
    have := congrArg leadingCoeff hcomp
    rw [leadingCoeff_comp (by rw [natDegree_linear one_ne_zero]; simp), leadingCoeff_linear one_ne_zero, one_pow, mul_one, leadingCoeff_mul, leadingCoeff_C, qpoly_lead, qpoly_lead] at this
    have h1 : (0 : ℚ) < (ipoly x.poly).leadingCoeff := by exact_mod_cast h.positive
    have h2 : (0 : ℚ) < (ipoly q).leadingCoeff := by rw [this]; exact mul_pos (inv_pos.2 q2) h1
    exact_mod_cast h2
  have hred : PolyReduced (id : Int → Int) q := by
    apply reduced_of_length q3.ne_zero
    have hr := ratCompose_reduced (x.poly.map fun c : Int => (c : ℚ)) [-a, 1]
    have hne' : ratOps.polyCompose (x.poly.map fun c : Int => (c : ℚ)) [-a, 1] ≠ [] := by intro e; rw [e] at hne; exact hne rfl
    have := (polyReduced_natDegree _ hr hne').2
    have h2 : 0 < (ratOps.polyCompose (x.poly.map fun c : Int => (c : ℚ)) [-a, 1]).length := List.length_pos_iff.2 hne'
    rw [hv, comp_affine_natDegree _ one_ne_zero, qpoly_natDegree] at this
    omega
  have hok := h.ok.affine q3 hred hlead one_ne_zero (inv_ne_zero q2.ne') hcomp
  have key := h.affine hok one_pos (inv_pos.2 q2) hcomp
  simp only [mul_one, Rat.cast_one] at key
  refine ⟨_, ?_, key⟩
  unfold ARoot.addRat
  simp only [q1, Option.bind_eq_bind, Option.bind_some]
  exact key.checked hf

/-- `root_rat_mul_poly` for a positive rational number. -/
theorem rootRatMulPoly_spec {fac : Fac} (hf : FacOk fac) {p : List Int} (hp : PolyOk p) {a : ℚ} (ha : 0 < a) :
    ∃ q κ, rootRatMulPoly fac p a = some q ∧ 0 < κ ∧ PolyOk q ∧ (qpoly q).comp (C a * X + C 0) = C κ * qpoly p := by
  have h0 := hp.irreducible.ne_zero
  have hl := reduced_length hp.reduced h0
  have hdeg := intGcd_models.toSemi.polyDegree_some p h0
  set d := (ipoly p).natDegree with hd
  set s := p.mapIdx fun i c => ratDenominator a ^ i * ratNumerator a ^ (d - i) * c with hs
  have hnum : (0 : ℚ) < ratNumerator a := by rw [ratNumerator_eq]; exact_mod_cast Rat.num_pos.2 ha
  have hden : (0 : ℚ) < ratDenominator a := by simp [ratDenominator, a.den_pos]
  have hfrac : (ratNumerator a : ℚ) = a * ratDenominator a := by
    rw [ratNumerator_eq]
    simp only [ratDenominator]
    push_cast
    exact (Rat.mul_den_eq_num a).symm
  have hcoeff : ∀ (l : List Int) (i : Nat), (qpoly l).coeff i = ((l.getD i 0 : Int) : ℚ) := by
    intro l i
    rw [coeff_map, show (ipoly l).coeff i = l.getD i 0 from coeff_polyVal (id : Int → Int) 0 rfl l i]
    rfl
  have hsp : (qpoly s).comp (C a * X + C 0) = C ((ratNumerator a : ℚ) ^ d) * qpoly p := by
    rw [C_0, add_zero]
    ext i
    rw [coeff_C_mul, comp_C_mul_X_coeff, hcoeff, hcoeff]
    by_cases hi : i < p.length
    · rw [List.getD_eq_getElem _ _ (by simpa [hs] using hi), List.getD_eq_getElem _ _ hi]
      simp only [hs, List.getElem_mapIdx]
      push_cast
      have h3 : (ratNumerator a : ℚ) ^ d = ratNumerator a ^ (d - i) * (a * ratDenominator a) ^ i := by
        rw [← hfrac, ← pow_add]; congr 1; omega
      rw [h3, mul_pow]
      ring
    · rw [List.getD_eq_default _ _ (by simpa [hs] using hi), List.getD_eq_default _ _ (by omega)]; simp
  have hsne : ipoly s ≠ 0 := by
    intro e
    rw [qpoly, e, Polynomial.map_zero, zero_comp] at hsp
    have : qpoly p ≠ 0 := (Polynomial.map_ne_zero_iff (RingHom.injective_int _)).2 h0
    exact (mul_ne_zero (C_ne_zero.2 (pow_ne_zero _ hnum.ne')) this) hsp.symm
  obtain ⟨g, q, q1, q2, q3, q4, q5, q6⟩ := intGcd_models.polyFactorPrimitive s hsne
  have hg : 0 < g := lt_of_le_of_ne (int_fav_nonneg q3) (Ne.symm q2)
  have hg' : (0 : ℚ) < g := by exact_mod_cast hg
  have hsq : qpoly s = C (g : ℚ) * qpoly q := by
    rw [qpoly, q4, Polynomial.map_mul, map_C]; rfl
  have hκ : (0 : ℚ) < (ratNumerator a : ℚ) ^ d / g := div_pos (pow_pos hnum _) hg'
  have hcomp : (qpoly q).comp (C a * X + C 0) = C ((ratNumerator a : ℚ) ^ d / g) * qpoly p := by
    rw [hsq, mul_comp, C_comp] at hsp
    have : C (g : ℚ) * (C ((ratNumerator a : ℚ) ^ d / g) * qpoly p) = C ((ratNumerator a : ℚ) ^ d) * qpoly p := by
      rw [← mul_assoc, ← C_mul, mul_div_cancel₀ _ hg'.ne']
    rw [← this] at hsp
    exact mul_left_cancel₀ (C_ne_zero.2 hg'.ne') hsp
  have hdq : (ipoly q).natDegree = d := by
    have := congrArg natDegree hcomp
    rwa [comp_affine_natDegree _ ha.ne', natDegree_C_mul hκ.ne', qpoly_natDegree, qpoly_natDegree] at this
  have hlead : 0 < (ipoly q).leadingCoeff := by
    have := congrArg leadingCoeff hcomp
    rw [leadingCoeff_comp (by rw [natDegree_linear ha.ne']; simp), leadingCoeff_linear ha.ne', leadingCoeff_mul, leadingCoeff_C, qpoly_lead, qpoly_lead] at this
    have h1 : (0 : ℚ) < (ipoly p).leadingCoeff := by exact_mod_cast hp.positive
    have h2 : (0 : ℚ) < (ipoly q).leadingCoeff * a ^ (qpoly q).natDegree := by rw [this]; exact mul_pos hκ h1
    have h3 := pos_of_mul_pos_left h2 (pow_pos ha _).le
    exact_mod_cast h3
  have hred : PolyReduced (id : Int → Int) q := by
    apply reduced_of_length q5.ne_zero
    rw [q6, hdq, hs, List.length_mapIdx, hl]
  have hok := hp.affine q5 hred hlead ha.ne' hκ.ne' hcomp
  refine ⟨q, _, ?_, hκ, hok, hcomp⟩
  unfold rootRatMulPoly
  have e1 : (a != 0) = true := by simpa using ha.ne'
  have e2 : decide (p.length ≤ d + 1) = true := by simp [hl]
  have e3 : intGcd.polyPrimitivePart s = some (some q) := by rw [GcdOps.polyPrimitivePart, q1]; rfl
  simp only [e1, isIrreducible_ok hf hp.irreducible, hdeg, assertThat, if_true, Option.bind_eq_bind, Option.bind_some]
  change (if decide (p.length ≤ d + 1) = true then some () else none).bind _ = _
  rw [e2, if_pos rfl, Option.bind_some]
  change (intGcd.polyPrimitivePart s).bind _ = _
  rw [e3]
  simp only [Option.bind_some, isIrreducible_ok hf hok.irreducible, if_true]

/-- The product with a positive rational number. -/
theorem ARoot.mulPosRat_spec {fac : Fac} (hf : FacOk fac) {x : ARoot} {r : ℝ} (h : x.Is r) {a : ℚ} (ha : 0 < a) :
    ∃ y, x.mulPosRat fac a = some y ∧ y.Is (r * a) := by
  obtain ⟨q, κ, e, hκ, hok, hcomp⟩ := rootRatMulPoly_spec hf h.ok ha
  have key := h.affine hok ha hκ hcomp
  simp only [add_zero, Rat.cast_zero] at key
  refine ⟨_, ?_, key⟩
  unfold ARoot.mulPosRat
  simp only [e, decide_eq_true ha, assertThat, if_true, Option.bind_eq_bind, Option.bind_some]
  exact key.checked hf

/-- Negation of a root. -/
theorem ARoot.neg_spec {x : ARoot} {r : ℝ} (h : x.Is r) : ∃ y, x.neg = some y ∧ y.Is (-r) := by
  have hc : ipoly (intGcd.polyCompose x.poly [0, -1]) = (ipoly x.poly).comp (C (-1) * X + C 0) := by
    rw [show ipoly (intGcd.polyCompose x.poly [0, -1]) = (ipoly x.poly).comp (ipoly [0, -1]) from intGcd_models.toSemi.polyCompose _ _]
    congr 1
    simp [polyVal_cons]
  have hcomp : ∀ f : ℤ[X], (f.comp (C (-1) * X + C 0)).comp (C (-1) * X + C 0) = f := by
    intro f
    rw [comp_assoc]
    simp
  have hne : ipoly (intGcd.polyCompose x.poly [0, -1]) ≠ 0 := by
    intro e
    rw [hc] at e
    have := hcomp (ipoly x.poly)
    rw [e, zero_comp] at this
    exact h.irreducible.ne_zero this.symm
  obtain ⟨w, w1, w2, w3, w4⟩ := flipPoly_spec hne (compose_reduced _ _) x.dir
  set s : ℤ := if 0 < (ipoly (intGcd.polyCompose x.poly [0, -1])).leadingCoeff then 1 else -1 with hs
  have hss : s * s = 1 := by rw [hs]; split <;> rfl
  have hw : ipoly w = C s * (ipoly x.poly).comp (C (-1) * X + C 0) := by
    rw [← hc, w4, ← mul_assoc, ← C_mul, hss, C_1, one_mul]
  have e0 : (ipoly w).comp (C (-1) * X + C 0) = C s * ipoly x.poly := by
    rw [hw, mul_comp, C_comp, hcomp]
  have e : (qpoly w).comp (C (-1) * X + C 0) = C (s : ℚ) * qpoly x.poly := by
    have := congrArg (Polynomial.map (Int.castRingHom ℚ)) e0
    simpa [Polynomial.map_comp] using this
  have hs0 : (s : ℚ) ≠ 0 := by
    intro h
    have : s = 0 := by exact_mod_cast h
    rw [this] at hss; simp at hss
  have hprim : (ipoly w).IsPrimitive := by
    have hp := irr_primitive h.irreducible (by have := h.degree; omega)
    intro a ha
    apply hp a
    have h1 : C a ∣ (ipoly w).comp (C (-1) * X + C 0) := by
      obtain ⟨k, hk⟩ := ha
      exact ⟨k.comp (C (-1) * X + C 0), by rw [hk, mul_comp, C_comp]⟩
    rw [e0] at h1
    have h2 := Dvd.dvd.mul_left h1 (C s)
    rwa [← mul_assoc, ← C_mul, hss, C_1, one_mul] at h2
  have hok := h.ok.affine hprim w2 w3 (by norm_num) hs0 e
  refine ⟨_, ?_, h.negate hok hs0 e⟩
  unfold ARoot.neg
  simp only [w1, Option.bind_eq_bind, Option.bind_some]
  congr 2
  rw [hs]
  split <;> simp

theorem RealAlg.neg_spec {x : RealAlg} {r : ℝ} (h : x.Is r) : ∃ y, x.neg = some y ∧ y.Is (-r) := by
  cases x with
  | rat a =>
    obtain rfl : r = a := h
    exact ⟨.rat (-a), rfl, by simp [RealAlg.Is]⟩
  | real x =>
    obtain ⟨y, e, hy⟩ := ARoot.neg_spec h
    exact ⟨.real y, by rw [RealAlg.neg, e]; rfl, hy⟩

end Verif.RealRoots
