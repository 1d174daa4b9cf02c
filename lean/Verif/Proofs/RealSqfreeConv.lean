import Verif.Proofs.RealRefine
import Mathlib.FieldTheory.Separable
import Mathlib.FieldTheory.Perfect
import Mathlib.RingTheory.Polynomial.GaussLemma

/-!
# The debug test for squarefree polynomials rejects the others
-/

namespace Verif.RealRoots

open Polynomial Verif.Rings

/-- A primitive squarefree integer polynomial is squarefree over the rationals. -/
theorem squarefree_rat {q : ℤ[X]} (hq : q.IsPrimitive) (hs : Squarefree q) : Squarefree (q.map (Int.castRingHom ℚ)) := by
  intro d hd
  have hq0 : q.map (Int.castRingHom ℚ) ≠ 0 := (Polynomial.map_ne_zero_iff (RingHom.injective_int _)).2 hq.ne_zero
  have hd0 : d ≠ 0 := by rintro rfl; simp at hd; exact hq0 hd
  obtain ⟨⟨b, hb⟩, hbe⟩ := IsLocalization.integerNormalization_map_to_map (nonZeroDivisors ℤ) d
  set e := IsLocalization.integerNormalization (nonZeroDivisors ℤ) d with he
  have hbu : IsUnit (C ((b : ℤ) : ℚ)) := by
    rw [isUnit_C, isUnit_iff_ne_zero]
    exact_mod_cast nonZeroDivisors.coe_ne_zero ⟨b, hb⟩
  have he1 : e.map (Int.castRingHom ℚ) = C ((b : ℤ) : ℚ) * d := by
    rw [← algebraMap_int_eq, hbe, ← smul_eq_C_mul]; exact (Int.cast_smul_eq_zsmul ℚ b d).symm
  have he0 : e ≠ 0 := by rintro h; rw [h, Polynomial.map_zero] at he1; exact (mul_ne_zero hbu.ne_zero hd0) he1.symm
  have hcu : IsUnit (C ((e.content : ℤ) : ℚ)) := by
    rw [isUnit_C, isUnit_iff_ne_zero]
    exact_mod_cast content_eq_zero_iff.not.2 he0
  have he2 : e.map (Int.castRingHom ℚ) = C ((e.content : ℤ) : ℚ) * e.primPart.map (Int.castRingHom ℚ) := by
    conv_lhs => rw [e.eq_C_content_mul_primPart, Polynomial.map_mul, Polynomial.map_C]
    rfl
  have has : Associated (e.primPart.map (Int.castRingHom ℚ)) d := by
    have h1 : Associated (C ((e.content : ℤ) : ℚ) * e.primPart.map (Int.castRingHom ℚ)) (e.primPart.map (Int.castRingHom ℚ)) :=
      associated_unit_mul_left _ _ hcu
    have h2 : Associated (C ((b : ℤ) : ℚ) * d) d := associated_unit_mul_left _ _ hbu
    rw [← he2, he1] at h1
    exact h1.symm.trans h2
  have hdd : (e.primPart * e.primPart).map (Int.castRingHom ℚ) ∣ q.map (Int.castRingHom ℚ) := by
    rw [Polynomial.map_mul]
    exact ((has.mul_mul has).dvd).trans hd
  have h3 : e.primPart * e.primPart ∣ q := by
    refine (IsPrimitive.Int.dvd_iff_map_cast_dvd_map_cast _ _ ?_).2 hdd
    exact e.isPrimitive_primPart.mul e.isPrimitive_primPart
  exact has.isUnit ((hs _ h3).map (mapRingHom (Int.castRingHom ℚ)))

theorem squarefree_real {q : ℤ[X]} (hq : q.IsPrimitive) (hs : Squarefree q) : Squarefree (q.map (Int.castRingHom ℝ)) := by
  have h1 : (q.map (Int.castRingHom ℚ)).Separable := PerfectField.separable_iff_squarefree.2 (squarefree_rat hq hs)
  have h2 := h1.map (f := Rat.castHom ℝ)
  rw [Polynomial.map_map] at h2
  have : (Rat.castHom ℝ).comp (Int.castRingHom ℚ) = Int.castRingHom ℝ := by ext; simp
  rw [this] at h2
  exact h2.squarefree

theorem sqfreeCheck_true {p : List Int} (h0 : rv p ≠ 0) (h : sqfreeCheck p = some true) : Squarefree (rv p) := by
  have hi := rv_ne_zero.1 h0
  obtain ⟨q, q1, q2, q3, q4, -⟩ := polyPrimSquarefreePart_spec intGcd_models p hi
  rw [sqfreeCheck, q1] at h
  simp only [Option.bind_eq_bind, Option.bind_some] at h
  rw [intGcd_models.toSemi.polyDegree_some q q2.ne_zero, intGcd_models.toSemi.polyDegree_some p hi] at h
  simp only [Option.bind_some, Option.some_inj, beq_iff_eq] at h
  obtain ⟨c, hc⟩ := q4
  have hc0 : c ≠ 0 := fun e => hi (by rw [hc, e, mul_zero])
  have hd : (ipoly p).natDegree = (ipoly q).natDegree + c.natDegree := by rw [hc, natDegree_mul q2.ne_zero hc0]
  have hcc : c = C (c.coeff 0) := eq_C_of_natDegree_eq_zero (by omega)
  have hu : IsUnit (c.map (Int.castRingHom ℝ)) := by
    rw [hcc, map_C, isUnit_C, isUnit_iff_ne_zero]
    have : c.coeff 0 ≠ 0 := fun e => hc0 (by rw [hcc, e, C_0])
    simpa using this
  have := squarefree_real q2 q3
  rw [rv_eq, hc, Polynomial.map_mul]
  intro d hdd
  exact this d (hu.dvd_mul_right.1 hdd)

theorem rootsSquarefree_some {p : List Int} {oa ob : Option ℚ} {ia ib : Bool} {R : SqRoots} (h : rootsSquarefree p oa ob ia ib = some R) :
    rv p ≠ 0 ∧ Squarefree (rv p) ∧ RangeOk p oa ob := by
  have h0 : rv p ≠ 0 := by
    intro e
    have hz : intGcd.toSemiRingOps.poly.isZero p = true := (intGcd_models.toSemi.poly.isZero p).2 (by
      by_contra hne; exact (rv_ne_zero.2 hne) e)
    unfold rootsSquarefree rangeChecks at h
    rw [hz] at h
    simp [assertThat] at h
  refine ⟨h0, ?_, ?_⟩
  · unfold rootsSquarefree rangeChecks at h
    have hz : intGcd.toSemiRingOps.poly.isZero p = false := by
      rw [← Bool.not_eq_true]
      exact fun e => (rv_ne_zero.1 h0) ((intGcd_models.toSemi.poly.isZero p).1 e)
    rw [hz] at h
    apply sqfreeCheck_true h0
    cases hs : sqfreeCheck p with
    | none => rw [hs] at h; simp [assertThat] at h
    | some b =>
      cases b with
      | true => rfl
      | false => rw [hs] at h; simp [assertThat] at h
  · by_contra hr
    rw [rootsSquarefree_fails h0 ia ib hr] at h
    cases h

end Verif.RealRoots
