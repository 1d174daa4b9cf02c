import Verif.Model.NumberField
import Verif.Spec.NumberField
import Verif.Proofs.PolyQuotient
import Verif.Proofs.SmithPoly
import Verif.Props.Polynomial
import Mathlib.RingTheory.Discriminant
import Mathlib.RingTheory.Norm.Basic
import Mathlib.RingTheory.Trace.Basic
import Mathlib.FieldTheory.Minpoly.IsIntegrallyClosed
import Mathlib.RingTheory.Localization.Integral
import Mathlib.RingTheory.Polynomial.RationalRoot
import Mathlib.RingTheory.Polynomial.IntegralNormalization

/-! Minimal polynomials, traces, norms and discriminants in a number field. -/

namespace Verif.Anf
open Verif.Rings Polynomial

local notation "qp" => polyVal (id : ℚ → ℚ)

theorem isInt_iff (x : ℚ) : isInt x = true ↔ ∃ z : ℤ, (z : ℚ) = x := by
  unfold isInt ratDenominator
  rw [beq_iff_eq]
  constructor
  · intro h
    exact ⟨x.num, Rat.coe_int_num_of_den_eq_one (by exact_mod_cast h)⟩
  · rintro ⟨z, rfl⟩
    simp

theorem isInt_integral (x : ℚ) : isInt x = true ↔ IsIntegral ℤ x := by
  rw [isInt_iff, IsIntegrallyClosed.isIntegral_iff (R := ℤ)]
  rfl

section
variable {f : List ℚ}

/-- the minimal polynomial, when it is returned -/
theorem pqMinPoly_sound (hf : qp f ≠ 0) (hn : 0 < (qp f).natDegree) (a m : List ℚ) (e : ratOps.pqMinPoly f a = some m) :
    qp m = minpoly ℚ (el f a) := by
  obtain ⟨M, m1, m2⟩ := ratOps_models.pqColMulMatrix f a hf rfl hn
  unfold DomainOps.pqMinPoly at e
  rw [m1] at e
  simp only [Option.bind_eq_bind, Option.bind_some] at e
  have h := (ratOps_models.minimalPolynomial m2 hn).1
  cases e2 : ratOps.minimalPolynomial M with
  | none => rw [e2] at e; cases e
  | some r =>
    obtain ⟨p, rfl, hp⟩ := h r e2
    rw [e2] at e
    cases e
    rw [hp, ← adjoinRoot_leftMulMatrix hf]
    exact minpoly.algHom_eq (Algebra.leftMulMatrix (AdjoinRoot.powerBasis hf).basis) (Algebra.leftMulMatrix_injective _) _

theorem pqMinPoly_total (hf : qp f ≠ 0) (hn : 0 < (qp f).natDegree) (h2 : (qp f).natDegree ≤ 2) (a : List ℚ) :
    ∃ m, ratOps.pqMinPoly f a = some m := by
  obtain ⟨M, m1, m2⟩ := ratOps_models.pqColMulMatrix f a hf rfl hn
  obtain ⟨h3, h4⟩ := ratOps_models.minimalPolynomial m2 hn
  obtain ⟨r, er⟩ := h4 h2
  obtain ⟨p, rfl, hp⟩ := h3 r er
  refine ⟨p, ?_⟩
  unfold DomainOps.pqMinPoly
  rw [m1]
  simp only [Option.bind_eq_bind, Option.bind_some, er]
  rfl

theorem el_add (a b : List ℚ) : el f (ratOps.polyAdd a b) = el f a + el f b := by
  unfold el
  rw [ratOps_models.toRing.toSemi.polyAdd, map_add]

theorem el_mul (a b : List ℚ) : el f (ratOps.polyMul a b) = el f a * el f b := by
  unfold el
  rw [ratOps_models.toRing.toSemi.polyMul, map_mul]

theorem pqIsZero_ok (hf : qp f ≠ 0) (a : List ℚ) : ∃ b, ratOps.pqIsZero f a = some b ∧ (b = true ↔ el f a = 0) := by
  obtain ⟨r, r1, r2⟩ := ratOps_models.polyRemMod (ratOps.polyAdd a (ratOps.polyNeg [])) f hf
  refine ⟨_, by unfold DomainOps.pqIsZero DomainOps.pqReduce; rw [r1]; rfl, ?_⟩
  have e : qp (ratOps.polyAdd a (ratOps.polyNeg [])) = qp a := by
    rw [ratOps_models.toRing.toSemi.polyAdd]
    change qp a + qp [] = qp a
    simp [polyVal]
  rw [ratOps_models.toRing.toSemi.polyEqual, r2, e]
  unfold el
  rw [AdjoinRoot.mk_eq_zero]
  change (qp a) % (qp f) = qp [] ↔ _
  rw [show qp [] = 0 by simp [polyVal]]
  exact EuclideanDomain.mod_eq_zero

theorem el_const (c : ℚ) : el f (polyConst c) = algebraMap ℚ (NumField f) c := by
  unfold el
  have : qp (polyConst c) = C c := by simp [polyConst, polyVal]
  rw [this]
  rfl

theorem el_smul (c : ℚ) (a : List ℚ) : el f (ratOps.polyMul (polyConst c) a) = c • el f a := by
  rw [el_mul, el_const, Algebra.smul_def]

end

section
variable {f : List ℚ} [hirr : Fact (Irreducible (qp f))]

theorem irr_ne (f : List ℚ) [hirr : Fact (Irreducible (qp f))] : qp f ≠ 0 := hirr.out.ne_zero
theorem irr_pos (f : List ℚ) [hirr : Fact (Irreducible (qp f))] : 0 < (qp f).natDegree := hirr.out.natDegree_pos

instance finDim : Module.Finite ℚ (NumField f) := (AdjoinRoot.powerBasis (irr_ne f)).finite

theorem finrank_eq : Module.finrank ℚ (NumField f) = (qp f).natDegree := by
  rw [(AdjoinRoot.powerBasis (irr_ne f)).finrank, AdjoinRoot.powerBasis_dim]

theorem minpoly_int_iff (x : NumField f) : IsIntegral ℤ x ↔ ∀ i, ∃ z : ℤ, (z : ℚ) = (minpoly ℚ x).coeff i := by
  constructor
  · intro h i
    rw [minpoly.isIntegrallyClosed_eq_field_fractions' ℚ h, coeff_map]
    exact ⟨_, rfl⟩
  · intro h
    have hx : IsIntegral ℚ x := Algebra.IsIntegral.isIntegral x
    have hl : minpoly ℚ x ∈ Polynomial.lifts (algebraMap ℤ ℚ) := by
      rw [Polynomial.lifts_iff_coeff_lifts]
      intro i
      obtain ⟨z, hz⟩ := h i
      exact ⟨z, hz⟩
    obtain ⟨q, q1, q2, q3⟩ := Polynomial.lifts_and_natDegree_eq_and_monic hl (minpoly.monic hx)
    refine ⟨q, q3, ?_⟩
    have := minpoly.aeval ℚ x
    rw [← q1, Polynomial.aeval_map_algebraMap] at this
    exact this

theorem all_isInt (m : List ℚ) : m.all isInt = true ↔ ∀ i, ∃ z : ℤ, (z : ℚ) = (qp m).coeff i := by
  rw [List.all_eq_true]
  constructor
  · intro h i
    rw [coeff_polyVal (id : ℚ → ℚ) 0 rfl]
    by_cases hi : i < m.length
    · rw [List.getD_eq_getElem _ _ hi]
      exact (isInt_iff _).1 (h _ (List.getElem_mem hi))
    · rw [List.getD_eq_default _ _ (by omega)]
      exact ⟨0, by simp⟩
  · intro h x hx
    obtain ⟨i, hi, rfl⟩ := List.getElem_of_mem hx
    have := h i
    rw [coeff_polyVal (id : ℚ → ℚ) 0 rfl, List.getD_eq_getElem _ _ hi] at this
    exact (isInt_iff _).2 this

/-- whatever `is_algebraic_integer` returns is right -/
theorem isAlgebraicInteger_sound (a : List ℚ) (b : Bool) (e : isAlgebraicInteger f a = some b) : b = true ↔ IsIntegral ℤ (el f a) := by
  obtain ⟨t, t1, t2⟩ := ratOps_models.pqTrace f a (irr_ne f) (irr_pos f)
  obtain ⟨n, n1, n2⟩ := ratOps_models.pqNorm f a (irr_ne f) (irr_pos f)
  unfold isAlgebraicInteger at e
  rw [t1] at e
  simp only [Option.bind_eq_bind, Option.bind_some] at e
  by_cases ht : isInt t = true
  · rw [if_pos ht, n1] at e
    simp only [Option.bind_some] at e
    by_cases hn : isInt n = true
    · rw [if_pos hn] at e
      cases em : ratOps.pqMinPoly f a with
      | none => rw [em] at e; cases e
      | some m =>
        rw [em] at e
        simp only [Option.bind_some, Option.some_inj] at e
        rw [← e, all_isInt, pqMinPoly_sound (irr_ne f) (irr_pos f) a m em, ← minpoly_int_iff]
    · rw [if_neg hn, Option.some_inj] at e
      rw [← e]
      refine iff_of_false (by simp) fun h => hn ?_
      rw [isInt_integral]
      change IsIntegral ℤ (id n)
      rw [n2]
      exact Algebra.isIntegral_norm ℚ h
  · rw [if_neg ht, Option.some_inj] at e
    rw [← e]
    refine iff_of_false (by simp) fun h => ht ?_
    rw [isInt_integral]
    change IsIntegral ℤ (id t)
    rw [t2]
    exact Algebra.isIntegral_trace h

/-- it returns whenever the minimal polynomial is computed -/
theorem isAlgebraicInteger_total (a : List ℚ) (h : ∃ m, ratOps.pqMinPoly f a = some m) : ∃ b, isAlgebraicInteger f a = some b := by
  obtain ⟨t, t1, t2⟩ := ratOps_models.pqTrace f a (irr_ne f) (irr_pos f)
  obtain ⟨n, n1, n2⟩ := ratOps_models.pqNorm f a (irr_ne f) (irr_pos f)
  obtain ⟨m, em⟩ := h
  unfold isAlgebraicInteger
  rw [t1, n1, em]
  simp only [Option.bind_eq_bind, Option.bind_some]
  split
  · split <;> exact ⟨_, rfl⟩
  · exact ⟨_, rfl⟩

theorem lcm_denominators (l : List ℚ) : ∃ m : ℤ, intOps.bezout.lcmList (l.map ratDenominator) = some m ∧ m ≠ 0 ∧
    (∀ x ∈ l, ∃ z : ℤ, (z : ℚ) = m * x) ∧ ((∀ x ∈ l, isInt x = true) → m ∣ 1) := by
  obtain ⟨m, m1, m2⟩ := intOps_models.bezout.toGcd.lcmList_fold (l.map ratDenominator) (intOps.one)
  have hdv : ∀ x ∈ l, ((x.den : ℤ)) ∣ m := by
    intro x hx
    exact m2.1 _ (Set.mem_insert_of_mem _ (List.mem_map.2 ⟨_, List.mem_map_of_mem hx, rfl⟩))
  refine ⟨m, m1, ?_, ?_, ?_⟩
  · rintro rfl
    have h := m2.2 ((l.map fun x => (x.den : ℤ)).prod) (by
      intro y hy
      rcases hy with rfl | hy
      · exact one_dvd _
      · obtain ⟨z, hz, rfl⟩ := List.mem_map.1 hy
        obtain ⟨x, hx, rfl⟩ := List.mem_map.1 hz
        exact List.dvd_prod (List.mem_map.2 ⟨x, hx, rfl⟩))
    rw [show (id (0 : ℤ)) = 0 from rfl, zero_dvd_iff, List.prod_eq_zero_iff] at h
    obtain ⟨x, hx, h0⟩ := List.mem_map.1 h
    exact x.den_nz (by exact_mod_cast h0)
  · intro x hx
    obtain ⟨k, hk⟩ := hdv x hx
    refine ⟨k * x.num, ?_⟩
    rw [hk]
    push_cast
    rw [mul_comm (x.den : ℚ), mul_assoc, mul_comm (x.den : ℚ), Rat.mul_den_eq_num]
  · intro h
    refine m2.2 1 ?_
    intro y hy
    rcases hy with rfl | hy
    · exact dvd_rfl
    · obtain ⟨z, hz, rfl⟩ := List.mem_map.1 hy
      obtain ⟨x, hx, rfl⟩ := List.mem_map.1 hz
      have := h x hx
      unfold isInt at this
      rw [beq_iff_eq] at this
      change ratDenominator x ∣ 1
      rw [this]

/-- a multiple of an element that clears the denominators of the minimal polynomial is integral -/
theorem integral_of_lcm (x : NumField f) (m : ℤ) (hm : m ≠ 0) (h : ∀ i, ∃ z : ℤ, (z : ℚ) = m * (minpoly ℚ x).coeff i) :
    IsIntegral ℤ ((m : ℚ) • x) := by
  have hx : IsIntegral ℚ x := Algebra.IsIntegral.isIntegral x
  choose g hg using h
  -- the polynomial with coefficients m * c_i
  have hl : C (m : ℚ) * minpoly ℚ x ∈ Polynomial.lifts (algebraMap ℤ ℚ) := by
    rw [Polynomial.lifts_iff_coeff_lifts]
    intro i
    rw [coeff_C_mul]
    exact ⟨g i, hg i⟩
  obtain ⟨q, q1⟩ := (Polynomial.mem_lifts _).1 hl
  have hroot : aeval x q = 0 := by
    rw [← Polynomial.aeval_map_algebraMap ℚ, q1, map_mul, minpoly.aeval, mul_zero]
  have hlc : (q.leadingCoeff : ℚ) = m := by
    have h1 := Polynomial.leadingCoeff_map_of_injective (f := algebraMap ℤ ℚ) (RingHom.injective_int _) q
    rw [q1, leadingCoeff_mul, (minpoly.monic hx).leadingCoeff, leadingCoeff_C, mul_one] at h1
    exact h1.symm
  have h2 := isIntegral_leadingCoeff_smul q x hroot
  rw [show q.leadingCoeff = m by exact_mod_cast hlc] at h2
  rw [Int.cast_smul_eq_zsmul]
  exact h2

/-- the value of `integral_multiple` -/
theorem integralMultiple_sound (a b : List ℚ) (e : integralMultiple f a = some b) :
    ∃ m : ℤ, m ≠ 0 ∧ el f b = (m : ℚ) • el f a ∧ IsIntegral ℤ (el f b) ∧ b = ratOps.polyMul (polyConst (m : ℚ)) a ∧
      (IsIntegral ℤ (el f a) → m ∣ 1) := by
  unfold integralMultiple at e
  simp only [Option.bind_eq_bind, Option.bind_eq_some_iff] at e
  obtain ⟨mp, e1, m, e2, ok, e3, u, e4, e5⟩ := e
  obtain ⟨m', m1, m2, m3, m4⟩ := lcm_denominators mp
  rw [m1, Option.some_inj] at e2
  subst e2
  rw [Option.some_inj] at e5
  subst e5
  refine ⟨m', m2, el_smul _ _, ?_, rfl, ?_⟩
  swap
  · intro h
    rw [minpoly_int_iff, ← pqMinPoly_sound (irr_ne f) (irr_pos f) a mp e1, ← all_isInt, List.all_eq_true] at h
    exact m4 h
  rw [el_smul]
  refine integral_of_lcm _ m' m2 fun i => ?_
  rw [← pqMinPoly_sound (irr_ne f) (irr_pos f) a mp e1, coeff_polyVal (id : ℚ → ℚ) 0 rfl]
  by_cases hi : i < mp.length
  · rw [List.getD_eq_getElem _ _ hi]
    exact m3 _ (List.getElem_mem hi)
  · rw [List.getD_eq_default _ _ (by omega)]
    exact ⟨0, by simp⟩

theorem integralMultiple_total (a : List ℚ) (h : ∀ a, ∃ m, ratOps.pqMinPoly f a = some m) : ∃ b, integralMultiple f a = some b := by
  obtain ⟨mp, e1⟩ := h a
  obtain ⟨m, m1, m2, m3, -⟩ := lcm_denominators mp
  obtain ⟨ok, e3⟩ := isAlgebraicInteger_total (ratOps.polyMul (polyConst (m : ℚ)) a) (h _)
  have hi : IsIntegral ℤ (el f (ratOps.polyMul (polyConst (m : ℚ)) a)) := by
    rw [el_smul]
    refine integral_of_lcm _ m m2 fun i => ?_
    rw [← pqMinPoly_sound (irr_ne f) (irr_pos f) a mp e1, coeff_polyVal (id : ℚ → ℚ) 0 rfl]
    by_cases hi : i < mp.length
    · rw [List.getD_eq_getElem _ _ hi]
      exact m3 _ (List.getElem_mem hi)
    · rw [List.getD_eq_default _ _ (by omega)]
      exact ⟨0, by simp⟩
  have h1 := (isAlgebraicInteger_sound _ _ e3).2 hi
  subst h1
  refine ⟨ratOps.polyMul (polyConst (m : ℚ)) a, ?_⟩
  unfold integralMultiple
  simp only [e1, m1, e3, Option.bind_eq_bind, Option.bind_some, assertThat, if_true]

end

section
variable {f : List ℚ}

theorem els_eq {n : Nat} {l : List (List ℚ)} (hl : l.length = n) (i : Fin n) : ∃ x, l[(i : Nat)]? = some x ∧ els f l n i = el f x := by
  refine ⟨l[(i : Nat)]'(by omega), List.getElem?_eq_getElem _, ?_⟩
  unfold els
  rw [List.getD_eq_getElem _ _ (by omega)]

/-- the trace form matrix -/
theorem traceFormMatrix_spec (hf : qp f ≠ 0) (hn : 0 < (qp f).natDegree) (l : List (List ℚ)) (hl : l.length = (qp f).natDegree) :
    ∃ m, traceFormMatrix f l = some m ∧ m.Denotes (id : ℚ → ℚ) (Algebra.traceMatrix ℚ (els f l (qp f).natDegree)) := by
  obtain ⟨m, m1, m2⟩ := Mat.construct_denotes (v := (id : ℚ → ℚ)) (r := (qp f).natDegree) (c := (qp f).natDegree)
    (mk := traceEntry f l) (A := Algebra.traceMatrix ℚ (els f l (qp f).natDegree)) (by
      intro i j
      obtain ⟨x, x1, x2⟩ := els_eq (f := f) hl i
      obtain ⟨y, y1, y2⟩ := els_eq (f := f) hl j
      obtain ⟨t, t1, t2⟩ := ratOps_models.pqTrace f (ratOps.polyMul x y) hf hn
      refine ⟨t, ?_, ?_⟩
      · unfold traceEntry
        simp only [x1, y1, Option.bind_eq_bind, Option.bind_some, t1]
      · rw [t2, Algebra.traceMatrix_apply, Algebra.traceForm_apply, x2, y2, ← el_mul]
        rfl)
  refine ⟨m, ?_, m2⟩
  unfold traceFormMatrix
  simp only [ratOps_models.pqDegree f hf, hl, assertThat, beq_self_eq_true, if_true, Option.bind_eq_bind, Option.bind_some]
  exact m1

theorem discriminant_spec (hf : qp f ≠ 0) (hn : 0 < (qp f).natDegree) (l : List (List ℚ)) (hl : l.length = (qp f).natDegree) :
    discriminant f l = some (Algebra.discr ℚ (els f l (qp f).natDegree)) := by
  obtain ⟨m, m1, m2⟩ := traceFormMatrix_spec hf hn l hl
  obtain ⟨x, x1, x2⟩ := ratOps_models.fieldEuc.bezout.matDet m2
  unfold discriminant
  simp only [m1, x1, Option.bind_eq_bind, Option.bind_some]
  change some x = _
  rw [Algebra.discr_def, ← x2]
  rfl

theorem discriminant_length (hf : qp f ≠ 0) (l : List (List ℚ)) (hl : l.length ≠ (qp f).natDegree) :
    traceFormMatrix f l = none ∧ discriminant f l = none := by
  have : traceFormMatrix f l = none := by
    unfold traceFormMatrix
    simp only [ratOps_models.pqDegree f hf, Option.bind_eq_bind, Option.bind_some]
    rw [beq_false_of_ne (Ne.symm hl)]
    rfl
  exact ⟨this, by unfold discriminant; rw [this]; rfl⟩

end

end Verif.Anf
