import Verif.Proofs.BzFactor
import Verif.Proofs.YunWrong

/-!
# The sign in the Berlekamp–Zassenhaus algorithm

On the polynomial `x (x - 1) (x + 1) (x - 2) (x + 2) (x + 3)`.
-/

namespace Verif.Rings

open Polynomial

/-- the polynomial `x (x - 1) (x + 1) (x - 2) (x + 2) (x + 3)` -/
def bzBad : List Int := [0, 12, 4, -15, -5, 3, 1]

def bzBadNeg : List Int := [0, -12, -4, 15, 5, -3, -1]

theorem bzBad_gcd1 : intOps.bezout.toGcdOps.polyGcdPrimSub bzBad (intOps.polyDerivative bzBad) = some [-1] := by
  rw [intGcdFast_eq, GcdOps.polyGcdPrimSub, if_neg (by decide +kernel), if_neg (by decide +kernel)]
  exact gcdFuel_eq _ 10 _ _ _ (by decide +kernel)

theorem bzBad_gcd2 : intOps.bezout.toGcdOps.polyGcdPrimSub bzBadNeg [] = some bzBadNeg := by
  rw [intGcdFast_eq, GcdOps.polyGcdPrimSub, if_neg (by decide), if_pos (by decide)]

theorem bzBad_poly : polyVal (id : Int → Int) bzBad = X * (X - C 1) * (X - C (-1)) * (X - C 2) * (X - C (-2)) * (X - C (-3)) := by
  simp [bzBad, polyVal_cons]; ring

theorem bzBad_neg : polyVal (id : Int → Int) bzBadNeg = -polyVal (id : Int → Int) bzBad := by
  simp [bzBad, bzBadNeg, polyVal_cons]; ring

theorem bzBad_roots : polyVal (id : Int → Int) bzBad = ∏ a ∈ ({0, 1, -1, 2, -2, -3} : Finset ℤ), (X - C a) := by
  rw [bzBad_poly]
  rw [Finset.prod_insert (by decide), Finset.prod_insert (by decide), Finset.prod_insert (by decide), Finset.prod_insert (by decide),
    Finset.prod_insert (by decide), Finset.prod_singleton]
  simp only [map_zero, sub_zero]; ring

theorem bzBad_monic : (polyVal (id : Int → Int) bzBad).Monic := by
  rw [bzBad_roots]
  exact monic_prod_of_monic _ _ fun a _ => monic_X_sub_C a

theorem bzBad_degree : (polyVal (id : Int → Int) bzBad).natDegree = 6 := by
  rw [bzBad_roots, natDegree_prod_of_monic _ _ fun a _ => monic_X_sub_C a]
  simp only [natDegree_X_sub_C]
  decide

theorem bzBad_linear : AllLinear (polyVal (id : Int → Int) bzBadNeg) := by
  intro q hq hd
  rw [bzBad_neg, dvd_neg, bzBad_roots] at hd
  obtain ⟨a, -, ha⟩ := (hq.prime.dvd_finset_prod_iff _).1 hd
  have h1 : Associated q (X - C a) := hq.associated_of_dvd (irreducible_X_sub_C a) ha
  have := natDegree_le_of_dvd ha (X_sub_C_ne_zero a)
  have h2 := natDegree_le_of_dvd h1.symm.dvd hq.ne_zero
  rw [natDegree_X_sub_C] at this h2
  omega

theorem bzBad_squarefree : Squarefree (polyVal (id : Int → Int) bzBadNeg) := by
  rw [bzBad_neg]
  refine (Associated.neg_left (Associated.refl _)).symm.squarefree_iff.1 ?_
  rw [bzBad_roots]
  intro g hg
  by_contra hu
  have hne : (∏ a ∈ ({0, 1, -1, 2, -2, -3} : Finset ℤ), (X - C a)) ≠ 0 := Finset.prod_ne_zero_iff.2 fun a _ => X_sub_C_ne_zero a
  obtain ⟨q, hq, hqg⟩ := WfDvdMonoid.exists_irreducible_factor hu (by rintro rfl; rw [mul_zero, zero_dvd_iff] at hg; exact hne hg)
  obtain ⟨a, ha, had⟩ := (hq.prime.dvd_finset_prod_iff _).1 ((hqg.trans ⟨g, rfl⟩).trans hg)
  have h1 : Associated q (X - C a) := hq.associated_of_dvd (irreducible_X_sub_C a) had
  have h2 : (X - C a) ^ 2 ∣ ∏ a ∈ ({0, 1, -1, 2, -2, -3} : Finset ℤ), (X - C a) := by
    rw [pow_two]
    exact (mul_dvd_mul (h1.symm.dvd.trans hqg) (h1.symm.dvd.trans hqg)).trans hg
  have h3 : rootMultiplicity a (∏ a ∈ ({0, 1, -1, 2, -2, -3} : Finset ℤ), (X - C a)) ≤ 1 := by
    rw [← count_roots, roots_prod_X_sub_C]
    exact Multiset.nodup_iff_count_le_one.1 (Finset.nodup _) a
  have h4 := (le_rootMultiplicity_iff hne).2 h2
  omega

section
variable {factor : Int → Option (Option (Factored Int))} (h : (intUfd factor).Models (id : Int → Int))
  {rand : Nat → Nat → Int} (hr : ∀ p : ℕ, p.Prime → FairStream (fun a : Int => (a : ZMod (p : ℤ).natAbs)) (rand p))
include h hr

/-- On `x (x - 1) (x + 1) (x - 2) (x + 2) (x + 3)` the algorithm returns a factorization of the opposite polynomial. -/
theorem bzBad_run : ∃ r, bzFactorize factor rand bzBad = some (some r) ∧
    r.denote (polyVal (id : Int → Int)) = -polyVal (id : Int → Int) bzBad := by
  have hP := h.toFav.poly
  obtain ⟨cf, c1, c2, c3⟩ := h.factorUnwrap (1 : Int) (by simp)
  obtain ⟨k1, k2⟩ := h.polyConstFactored c2
  rw [c3] at k2
  have e0 : (intUfd factor).polyFactorPrimitiveUnwrap bzBad = some (1, bzBad) := by
    show intOps.bezout.toGcdOps.polyFactorPrimitiveUnwrap bzBad = _
    rw [intGcdFast_eq]; decide +kernel
  have e1 : (intUfd factor).yunInit (polyConstFactored cf) bzBad = some ⟨polyConstFactored cf, bzBad, bzBadNeg, [], 1⟩ := by
    have g1 : (intUfd factor).polyGcdPrimSub bzBad ((intUfd factor).polyDerivative bzBad) = some [-1] := bzBad_gcd1
    have g2 : unwrapDiv ((intUfd factor).polyDiv bzBad [-1]) = some bzBadNeg :=
      (by decide +kernel : unwrapDiv (intOps.polyDiv bzBad [-1]) = some bzBadNeg)
    have g3 : unwrapDiv ((intUfd factor).polyDiv ((intUfd factor).polyDerivative bzBad) [-1]) = some [-12, -8, 45, 20, -15, -6] :=
      (by decide +kernel : unwrapDiv (intOps.polyDiv (intOps.polyDerivative bzBad) [-1]) = some [-12, -8, 45, 20, -15, -6])
    have g4 : (intUfd factor).yunD bzBadNeg [-12, -8, 45, 20, -15, -6] = [] :=
      (by decide +kernel : intOps.yunD bzBadNeg [-12, -8, 45, 20, -15, -6] = [])
    simp only [UfdOps.yunInit, g1, g2, g3, g4, Option.bind_eq_bind, Option.bind_some]
  have hprim : (polyVal (id : Int → Int) bzBadNeg).IsPrimitive := by
    rw [bzBad_neg]
    exact isPrim_of_dvd bzBad_monic.isPrimitive (neg_dvd.2 dvd_rfl)
  have hdeg : (polyVal (id : Int → Int) bzBadNeg).natDegree = 6 := by rw [bzBad_neg, natDegree_neg, bzBad_degree]
  obtain ⟨f2, x1, x2, -, -, -, x3⟩ := bzSqfree_spec h hr bzBadNeg hprim bzBad_squarefree (by rw [hdeg]; norm_num [machineRange])
  have x4 := x3 (by rw [bzBad_neg, leadingCoeff_neg, bzBad_monic.leadingCoeff]; norm_num) bzBad_linear (by rw [hdeg]; decide)
    (by rw [hdeg]; norm_num)
  rw [bzBad_neg, neg_neg] at x4
  obtain ⟨m2, y1, y2, y3⟩ := Factored.mul_spec hP (polyConstFactored cf) (f2.pow 1) k1.fav (Factored.pow_valid x2 1 one_pos).fav
  have hm2 := y3 k1 (Factored.pow_valid x2 1 one_pos)
  have hd2 : m2.denote (polyVal (id : Int → Int)) = polyVal (id : Int → Int) bzBad := by
    have := Factored.pow_denote (v := polyVal (id : Int → Int)) f2 0
    rw [pow_zero, mul_one, zero_add, pow_one, x4] at this
    rw [y2, k2, this]; simp
  have e3 : (intUfd factor).yunStep intOps.bezout.toGcdOps.polyGcdPrimSub (bzSqfree factor rand)
      ⟨polyConstFactored cf, bzBad, bzBadNeg, [], 1⟩ = some ⟨m2, [-1], [1], [], 2⟩ := by
    have g2 : unwrapDiv ((intUfd factor).polyDiv bzBad ((intUfd factor).toSemiRingOps.poly.natPow bzBadNeg 1)) = some [-1] :=
      (by decide +kernel : unwrapDiv (intOps.polyDiv bzBad (intOps.toSemiRingOps.poly.natPow bzBadNeg 1)) = some [-1])
    have g3 : unwrapDiv ((intUfd factor).polyDiv bzBadNeg bzBadNeg) = some [1] :=
      (by decide +kernel : unwrapDiv (intOps.polyDiv bzBadNeg bzBadNeg) = some [1])
    have g4 : unwrapDiv ((intUfd factor).polyDiv [] bzBadNeg) = some [] :=
      (by decide +kernel : unwrapDiv (intOps.polyDiv [] bzBadNeg) = some [])
    have g5 : (intUfd factor).yunD [1] [] = [] := (by decide +kernel : intOps.yunD [1] [] = [])
    simp only [UfdOps.yunStep, bzBad_gcd2, x1, y1, g2, g3, g4, g5, Option.bind_eq_bind, Option.bind_some]
  have e4 : (intUfd factor).yunLoop intOps.bezout.toGcdOps.polyGcdPrimSub (bzSqfree factor rand)
      ⟨polyConstFactored cf, bzBad, bzBadNeg, [], 1⟩ = some ⟨m2, [-1], [1], [], 2⟩ := by
    have d1 : (intUfd factor).polyDegree bzBad = some 6 := (by decide +kernel : intOps.polyDegree bzBad = some 6)
    have d2 : (intUfd factor).polyDegree [-1] = some 0 := (by decide +kernel : intOps.polyDegree [-1] = some 0)
    rw [UfdOps.yunLoop]
    simp only [d1, e3, Option.bind_eq_bind, Option.bind_some]
    rw [if_pos (by decide), UfdOps.yunLoop]
    simp only [d2, Option.bind_eq_bind, Option.bind_some]
    rw [if_neg (by decide)]
  obtain ⟨r, r1, r2, -⟩ := Factored.mul_spec hP m2 (Factored.factoredUnit [-1]) hm2.fav (by simp [Factored.factoredUnit])
  refine ⟨r, ?_, ?_⟩
  · have hz : (intUfd factor).toSemiRingOps.poly.isZero bzBad = false :=
      (by decide +kernel : intOps.toSemiRingOps.poly.isZero bzBad = false)
    have hz' : intOps.toSemiRingOps.poly.isZero bzBad = false := hz
    rw [bzFactorize, if_neg (by rw [hz']; simp), UfdOps.factorizeYun]
    simp only [hz, Bool.not_false, assertThat, if_true, e0, c1, e1, e4, Option.bind_eq_bind, Option.bind_some]
    exact congrArg (Option.map some) r1
  · rw [r2, hd2]
    simp [Factored.denote, Factored.factoredUnit, polyVal_cons]

end

end Verif.Rings
