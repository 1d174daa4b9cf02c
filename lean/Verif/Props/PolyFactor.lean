import Verif.Proofs.YunWrong
import Verif.Proofs.PolyFactorFof
import Verif.Props.Factored
import Verif.Props.FiniteField

/-!
# Properties of the factorization of polynomials over rings of characteristic zero and over fields of fractions
-/

namespace Verif.Rings

open Polynomial

section
variable {α R : Type} [CommRing R] [UniqueFactorizationMonoid R] [CharZero R] {S : UfdOps α} {v : α → R}

/-! ## C88: Yun's algorithm -/

/-- For every nonzero polynomial over a unique factorization domain of characteristic zero the reduction of factoring to the squarefree
case terminates without panicking; the factors it returns are irreducible, pairwise different and normalised, and their product
is the argument up to a unit. It is the argument itself when no square of a nonconstant polynomial divides it. What is missing: that the unit is right
for all polynomials, which fails (`C88_yun_wrong`). -/
theorem C88_yun_partial (h : S.Models v) {pgcd : List α → List α → Option (List α)} {sq : List α → Option (Factored (List α))}
    (hgcd : IsPrimGcd v pgcd) (hsq : FactorsPrimSqfree S v sq) (f : List α) (hf : polyVal v f ≠ 0) :
    ∃ r, S.factorizeYun pgcd sq f = some r ∧ r.Valid S.toFavOps.poly (polyVal v) ∧
      Associated (r.denote (polyVal v)) (polyVal v f) ∧
      ((∀ g : R[X], g ^ 2 ∣ polyVal v f → g.natDegree = 0) → r.denote (polyVal v) = polyVal v f) :=
  factorizeYun_spec h hgcd hsq f hf

/-- Over the integers, with the gcd of `Polynomial<Integer>` and for every correct algorithm for the squarefree case, the unit is
wrong for `(x^2 - x - 1)^2`: the product of the result is `-(x^2 - x - 1)^2`. -/
theorem C88_yun_wrong {factor : Int → Option (Option (Factored Int))} (h : (intUfd factor).Models (id : Int → Int))
    {sq : List Int → Option (Factored (List Int))} (hsq : FactorsPrimSqfree (intUfd factor) (id : Int → Int) sq) :
    polyVal (id : Int → Int) [1, 2, -1, -2, 1] = (X ^ 2 - X - 1) ^ 2 ∧
    ∃ r, (intUfd factor).factorizeYun (intUfd factor).polyGcdPrimSub sq [1, 2, -1, -2, 1] = some r ∧
      r.denote (polyVal (id : Int → Int)) = -(X ^ 2 - X - 1) ^ 2 := by
  have e : polyVal (id : Int → Int) [1, 2, -1, -2, 1] = (X ^ 2 - X - 1) ^ 2 := by
    simp [polyVal_cons]; ring
  obtain ⟨r, r1, r2⟩ := yunBad_run h fun a _ => hsq a
  exact ⟨e, r, r1, by rw [r2, yunBad, e]⟩

/-! ## C89: Kronecker's method -/

/-- `factorize_by_kroneckers_method` returns `None` exactly for the zero polynomial; otherwise it terminates without panicking and
returns a valid factorization of an associate of the argument, and of the argument itself when no square of a nonconstant polynomial divides it.
What is missing: the unit for the other polynomials (`C89_kronecker_wrong`). -/
theorem C89_kronecker_partial (h : S.Models v) {pgcd : List α → List α → Option (List α)} (hgcd : IsPrimGcd v pgcd)
    (units : List α) (hu : ∀ u, IsUnit u → ∃ x ∈ units, v x = u) (hu' : ∀ x ∈ units, IsUnit (v x)) :
    (∀ f, polyVal v f = 0 → S.factorizeKronecker pgcd units f = some none) ∧
    FactorsUpToUnit S.toFavOps v (S.factorizeKronecker pgcd units) := by
  refine ⟨fun f hf => ?_, fun f hf => ?_⟩
  · rw [UfdOps.factorizeKronecker, if_pos ((h.toSemi.poly.isZero f).2 hf)]
  · obtain ⟨r, r1, r2⟩ := factorizeYun_spec h hgcd (fun a ha _ => kronecker_factors h units hu hu' a ha) f hf
    refine ⟨r, ?_, r2⟩
    rw [UfdOps.factorizeKronecker, if_neg (fun e => hf ((h.toSemi.poly.isZero f).1 e)), r1]; rfl

/-- The search for a factor is exact: on a primitive polynomial that is not a unit `find_factor_primitive_by_kroneckers_algorithm`
terminates without panicking and returns `Irreducible` only for irreducible polynomials and otherwise a factorization into two
polynomials that are not units. -/
theorem C89_find_factor (h : S.Models v) (units : List α) (hu : ∀ u, IsUnit u → ∃ x ∈ units, v x = u)
    (hu' : ∀ x ∈ units, IsUnit (v x)) (f : List α) (hf : (polyVal v f).IsPrimitive) (hn : ¬ IsUnit (polyVal v f)) :
    (S.kroneckerFindFactor units f = some .irreducible ∧ Irreducible (polyVal v f)) ∨
    ∃ g k, S.kroneckerFindFactor units f = some (.composite g k) ∧ polyVal v f = polyVal v g * polyVal v k ∧
      ¬ IsUnit (polyVal v g) ∧ ¬ IsUnit (polyVal v k) := by
  obtain ⟨r, r1, r2⟩ := kroneckerFindFactor_spec h units hu hu' f hf hn
  cases r with
  | irreducible => exact Or.inl ⟨r1, r2⟩
  | composite g k => exact Or.inr ⟨g, k, r1, r2⟩

theorem intUnits_spec : (∀ u : Int, IsUnit u → ∃ x ∈ intUnits, id x = u) ∧ ∀ x ∈ intUnits, IsUnit (id x) := by
  constructor
  · intro u hu
    rcases Int.isUnit_iff.1 hu with rfl | rfl
    · exact ⟨1, by simp [intUnits], rfl⟩
    · exact ⟨-1, by simp [intUnits], rfl⟩
  · intro x hx
    simp only [intUnits, List.mem_cons, List.not_mem_nil, or_false] at hx
    rcases hx with rfl | rfl <;> simp

/-- `(x^2 - x - 1)^2` is factored as `-(x^2 - x - 1)^2`. -/
theorem C89_kronecker_wrong {factor : Int → Option (Option (Factored Int))} (h : (intUfd factor).Models (id : Int → Int)) :
    ∃ r, (intUfd factor).factorizeKronecker (intUfd factor).polyGcdPrimSub intUnits [1, 2, -1, -2, 1] = some (some r) ∧
      r.denote (polyVal (id : Int → Int)) ≠ polyVal (id : Int → Int) [1, 2, -1, -2, 1] := by
  obtain ⟨e, r, r1, r2⟩ := C88_yun_wrong h (fun a ha _ => kronecker_factors h intUnits intUnits_spec.1 intUnits_spec.2 a ha)
  refine ⟨r, ?_, ?_⟩
  · rw [UfdOps.factorizeKronecker, if_neg (fun e => absurd e (by
      show ¬ intOps.toSemiRingOps.poly.isZero [1, 2, -1, -2, 1] = true
      decide +kernel)), r1]; rfl
  · rw [r2, e]
    intro e'
    have := congrArg (Polynomial.eval 0) e'
    simp at this

end

section Fof
variable {α β K R : Type} [Field K] [CommRing R] [IsDomain R] [UniqueFactorizationMonoid R] [Algebra R K] [IsFractionRing R K]
  {S : DomainOps α} {B : GcdOps β} {v : α → K} {w : β → R} {fromBase : β → α} {num den : α → β}
  (hS : S.Models v) (hB : B.Models w) (hF : FofModels fromBase num den v w)
include hS hB hF

/-! ## C90: factoring over a field of fractions -/

/-- Factoring over a field of fractions through the primitive part. For a nonzero polynomial the result is a valid factorization of an
associate of the argument, and of the argument itself when it is squarefree. What is missing: polynomials with a repeated factor and the zero polynomial
(`C90_fof_wrong`, `C90_zero_wrong`). -/
theorem C90_fof_partial {baseFactor : List β → Option (Option (Factored (List β)))} (hbf : FactorsUpToUnit B.toFavOps w baseFactor)
    (f : List α) (hf : polyVal v f ≠ 0) :
    ∃ r, polyFactorizeByPrimitive S B fromBase num den baseFactor f = some (some r) ∧
      r.Valid S.fieldFav.poly (polyVal v) ∧ Associated (r.denote (polyVal v)) (polyVal v f) ∧
      (Squarefree (polyVal v f) → r.denote (polyVal v) = polyVal v f) := by
  have hinj : Function.Injective (algebraMap R K) := IsFractionRing.injective R K
  obtain ⟨c, q, e1, e2, e3, e4⟩ := polyFactorPrimitiveFof_spec hS hB hF f hf
  obtain ⟨pf, p1, p2, p3, p4⟩ := hbf q e3.ne_zero
  have hprim : (pf.denote (polyVal w)).IsPrimitive := isPrim_of_dvd e3 p3.dvd
  obtain ⟨r, r1, r2, r3⟩ := fofFactorFinish_spec hS hF c e2 pf hB.toFav.poly p2 hprim
  have hCc : IsUnit (C (v c)) := isUnit_C.2 (isUnit_iff_ne_zero.2 e2)
  have hlc : IsUnit (pf.factors.map fun p => C (algebraMap R K (polyVal w p.1).leadingCoeff) ^ (p.2 - 1)).prod := by
    rw [List.prod_isUnit_iff]
    intro a ha
    obtain ⟨p, hp, rfl⟩ := List.mem_map.1 ha
    refine (isUnit_C.2 (isUnit_iff_ne_zero.2 ?_)).pow _
    rw [Ne, map_eq_zero_iff _ hinj]
    exact leadingCoeff_ne_zero.2 (p2.irreducible p hp).ne_zero
  refine ⟨r, ?_, r2, ?_, fun hsf => ?_⟩
  · rw [polyFactorizeByPrimitive]
    simp only [e1, p1, fofFactorMatch, r1, Option.bind_eq_bind, Option.bind_some, Option.map_some]
  · have h1 : Associated (r.denote (polyVal v)) (C (v c) * (pf.denote (polyVal w)).map (algebraMap R K)) := by
      rw [← r3]; exact (associated_mul_isUnit_right_iff hlc).2 (Associated.refl _)
    refine h1.trans ?_
    rw [e4]
    exact Associated.mul_left _ (p3.map (mapRingHom (algebraMap R K)))
  · have hq : ∀ g : R[X], g ^ 2 ∣ polyVal w q → g.natDegree = 0 := by
      intro g hg
      have h1 : g.map (algebraMap R K) * g.map (algebraMap R K) ∣ polyVal v f := by
        rw [e4, ← Polynomial.map_mul, ← pow_two]
        exact (Polynomial.map_dvd _ hg).mul_left _
      have h2 := hsf _ h1
      rw [← natDegree_map_eq_of_injective hinj]
      exact natDegree_eq_zero_of_isUnit h2
    have h1 := p4 hq
    have hone : ∀ p ∈ pf.factors, p.2 - 1 = 0 := by
      intro p hp
      by_contra hc
      have hd : polyVal w p.1 ^ 2 ∣ polyVal w q := by
        rw [← h1]
        refine Dvd.dvd.mul_left ?_ _
        exact (pow_dvd_pow _ (by omega : 2 ≤ p.2)).trans (List.dvd_prod (List.mem_map.2 ⟨p, hp, rfl⟩))
      have h2 := hq _ hd
      have h3 : (polyVal w p.1).IsPrimitive := isPrim_of_dvd hprim (Factored.denote_dvd hp (p2.pos p hp))
      exact (p2.irreducible p hp).not_isUnit (isUnit_of_prim_natDegree h3 h2)
    have h2 : (pf.factors.map fun p => C (algebraMap R K (polyVal w p.1).leadingCoeff) ^ (p.2 - 1)).prod = 1 := by
      apply List.prod_eq_one
      intro a ha
      obtain ⟨p, hp, rfl⟩ := List.mem_map.1 ha
      rw [hone p hp, pow_zero]
    rw [h2, mul_one, h1, ← e4] at r3
    exact r3

/-- The part of `C90_fof_partial` that needs only a factorization up to a unit of the primitive part. -/
theorem fof_associated {baseFactor : List β → Option (Option (Factored (List β)))} (f : List α) (hf : polyVal v f ≠ 0)
    (hbf : ∀ q, (polyVal w q).IsPrimitive → (polyVal w q).natDegree = (polyVal v f).natDegree →
      ∃ pf, baseFactor q = some (some pf) ∧ pf.Valid B.toFavOps.poly (polyVal w) ∧ Associated (pf.denote (polyVal w)) (polyVal w q)) :
    ∃ r, polyFactorizeByPrimitive S B fromBase num den baseFactor f = some (some r) ∧
      r.Valid S.fieldFav.poly (polyVal v) ∧ Associated (r.denote (polyVal v)) (polyVal v f) := by
  have hinj : Function.Injective (algebraMap R K) := IsFractionRing.injective R K
  obtain ⟨c, q, e1, e2, e3, e4⟩ := polyFactorPrimitiveFof_spec hS hB hF f hf
  obtain ⟨pf, p1, p2, p3⟩ := hbf q e3 (by
    rw [e4, natDegree_C_mul e2, natDegree_map_eq_of_injective hinj])
  have hprim : (pf.denote (polyVal w)).IsPrimitive := isPrim_of_dvd e3 p3.dvd
  obtain ⟨r, r1, r2, r3⟩ := fofFactorFinish_spec hS hF c e2 pf hB.toFav.poly p2 hprim
  have hlc : IsUnit (pf.factors.map fun p => C (algebraMap R K (polyVal w p.1).leadingCoeff) ^ (p.2 - 1)).prod := by
    rw [List.prod_isUnit_iff]
    intro a ha
    obtain ⟨p, hp, rfl⟩ := List.mem_map.1 ha
    refine (isUnit_C.2 (isUnit_iff_ne_zero.2 ?_)).pow _
    rw [Ne, map_eq_zero_iff _ hinj]
    exact leadingCoeff_ne_zero.2 (p2.irreducible p hp).ne_zero
  refine ⟨r, ?_, r2, ?_⟩
  · rw [polyFactorizeByPrimitive]
    simp only [e1, p1, fofFactorMatch, r1, Option.bind_eq_bind, Option.bind_some, Option.map_some]
  · have h1 : Associated (r.denote (polyVal v)) (C (v c) * (pf.denote (polyVal w)).map (algebraMap R K)) := by
      rw [← r3]; exact (associated_mul_isUnit_right_iff hlc).2 (Associated.refl _)
    refine h1.trans ?_
    rw [e4]
    exact Associated.mul_left _ (p3.map (mapRingHom (algebraMap R K)))

/-- The zero polynomial makes it panic instead of returning `None`. -/
theorem C90_zero_wrong (baseFactor : List β → Option (Option (Factored (List β)))) (f : List α) (hf : polyVal v f = 0) :
    polyFactorizeByPrimitive S B fromBase num den baseFactor f = none := by
  rw [polyFactorizeByPrimitive, polyFactorPrimitiveFof_zero hS hB hF f hf]; rfl

end Fof

/-- `(2x + 1)^2` over the rationals, for a factoring algorithm over the integers that is right up to a unit -/
theorem fof_bad_assoc {P : ℤ → Prop} {baseFactor : List Int → Option (Option (Factored (List Int)))}
    (hbf : ∀ q, (polyVal (id : Int → Int) q).IsPrimitive → (polyVal (id : Int → Int) q).natDegree = 2 →
      ∃ pf, baseFactor q = some (some pf) ∧ pf.Valid intOps.toFavOps.poly (polyVal (id : Int → Int)) ∧
        ∃ s : ℤ, IsUnit s ∧ P s ∧ pf.denote (polyVal (id : Int → Int)) = polyVal (id : Int → Int) q * C s) :
    polyVal (id : ℚ → ℚ) [1, 4, 4] = (2 * X + 1) ^ 2 ∧ ∃ s : ℤ, IsUnit s ∧ P s ∧
    ∃ r, polyFactorizeByPrimitive ratOps intOps.bezout.toGcdOps (fun z : Int => (z : ℚ)) ratNumerator ratDenominator baseFactor
      [1, 4, 4] = some (some r) ∧ 2 * r.denote (polyVal (id : ℚ → ℚ)) = (2 * X + 1) ^ 2 * C (s : ℚ) := by
  have c2 : (C 2 : ℚ[X]) = 2 := rfl
  have c4 : (C 4 : ℚ[X]) = 4 := rfl
  have e : polyVal (id : ℚ → ℚ) [1, 4, 4] = (2 * X + 1) ^ 2 := by
    simp [polyVal_cons, c4]; ring
  refine ⟨e, ?_⟩
  have hne : (2 * X + 1 : ℤ[X]) ≠ 0 := by
    intro h
    have := congrArg (Polynomial.eval 0) h
    simp at this
  have hneQ : (2 * X + 1 : ℚ[X]) ≠ 0 := by
    intro h
    have := congrArg (Polynomial.eval 0) h
    simp at this
  have hdeg : (2 * X + 1 : ℤ[X]).natDegree = 1 := by
    rw [show (2 * X + 1 : ℤ[X]) = C 2 * X + C 1 by simp]
    exact natDegree_linear (by norm_num)
  have hlc : (2 * X + 1 : ℤ[X]).leadingCoeff = 2 := by
    rw [show (2 * X + 1 : ℤ[X]) = C 2 * X + C 1 by simp]
    exact leadingCoeff_linear (by norm_num)
  have hmap : (2 * X + 1 : ℤ[X]).map (algebraMap ℤ ℚ) = 2 * X + 1 := by simp
  have hprim : (2 * X + 1 : ℤ[X]).IsPrimitive := by
    intro r hr
    rw [show (2 * X + 1 : ℤ[X]) = C 2 * X + C 1 by simp] at hr
    have := (C_dvd_iff_dvd_coeff r _).1 hr 0
    simp at this
    exact isUnit_of_dvd_one this
  have hirr : Irreducible (2 * X + 1 : ℤ[X]) := by
    rw [IsPrimitive.irreducible_iff_irreducible_map_fraction_map (K := ℚ) hprim, hmap]
    apply irreducible_of_degree_eq_one
    rw [show (2 * X + 1 : ℚ[X]) = C 2 * X + C 1 by simp [c2]]
    exact degree_linear (by norm_num)
  have hfav : intOps.toFavOps.poly.IsFav (polyVal (id : Int → Int)) (2 * X + 1) := by
    intro a u w ha ea
    obtain ⟨l, u', c, g, l1, l2, l3, l4, l5, l6⟩ := intOps_models.toFav.polyFactorFavAssoc_ne a (by rw [ha]; exact hne)
    have ea' : intOps.toFavOps.polyFactorFavAssoc a = some (u, w) := ea
    rw [l5] at ea'
    cases ea'
    have l1' : l = 2 := by rw [ha, hlc] at l1; exact l1
    subst l1'
    have : intOps.factorFavAssoc 2 = some (1, 2) := by decide
    rw [this] at l2
    cases l2
    rw [ha] at l6
    simpa using l6.symm
  obtain ⟨c, q, e1, e2, e3, e4⟩ := polyFactorPrimitiveFof_spec ratOps_models intOps_models.bezout.toGcd C64_rat_fof [1, 4, 4]
    (by rw [e]; exact pow_ne_zero _ hneQ)
  obtain ⟨pf, p1, p2, s, s1, s2, p3⟩ := hbf q e3 (by
    have := congrArg natDegree e4
    rw [natDegree_C_mul e2, natDegree_map_eq_of_injective (IsFractionRing.injective ℤ ℚ), e, natDegree_pow,
      show (2 * X + 1 : ℚ[X]) = C 2 * X + C 1 by simp [c2], natDegree_linear (by norm_num)] at this
    omega)
  have hpq : Associated (pf.denote (polyVal (id : Int → Int))) (polyVal (id : Int → Int) q) := by
    rw [p3]; exact (associated_mul_isUnit_left_iff (isUnit_C.2 s1)).2 (Associated.refl _)
  have hpfp : (pf.denote (polyVal (id : Int → Int))).IsPrimitive := isPrim_of_dvd e3 hpq.dvd
  obtain ⟨r, r1, r2, r3⟩ := fofFactorFinish_spec ratOps_models C64_rat_fof c e2 pf intOps_models.toFav.poly p2 hpfp
  refine ⟨s, s1, s2, r, ?_, ?_⟩
  · rw [polyFactorizeByPrimitive]
    simp only [e1, p1, fofFactorMatch, r1, Option.bind_eq_bind, Option.bind_some, Option.map_some]
  · -- the primitive part is `± (2x + 1)^2`
    have hass : Associated (polyVal (id : Int → Int) q) ((2 * X + 1) ^ 2) := by
      have h1 : Associated ((polyVal (id : Int → Int) q).map (algebraMap ℤ ℚ)) (((2 * X + 1) ^ 2 : ℤ[X]).map (algebraMap ℤ ℚ)) := by
        rw [Polynomial.map_pow, hmap, ← e, e4]
        exact (associated_isUnit_mul_right_iff (isUnit_C.2 (isUnit_iff_ne_zero.2 e2))).2 (Associated.refl _)
      refine associated_of_dvd_dvd ?_ ?_
      · exact (IsPrimitive.dvd_iff_fraction_map_dvd_fraction_map ℚ e3).2 h1.dvd
      · exact (IsPrimitive.dvd_iff_fraction_map_dvd_fraction_map ℚ (prim_pow hprim 2)).2 h1.symm.dvd
    obtain ⟨u, hu⟩ := (hpq.trans hass).symm
    obtain ⟨ul, hul⟩ := intOps_models.toSemi.poly.surj ((u : ℤ[X]))
    have hlin : polyVal (id : Int → Int) [1, 2] = 2 * X + 1 := by simp [polyVal_cons]; ring
    have hval : (⟨ul, [([1, 2], 2)]⟩ : Factored (List Int)).Valid intOps.toFavOps.poly (polyVal (id : Int → Int)) := by
      refine ⟨?_, ?_, ?_, ?_, ?_⟩
      · show IsUnit (polyVal (id : Int → Int) ul)
        rw [hul]; exact u.isUnit
      · intro p hp; simp only [List.mem_singleton] at hp; subst hp; rw [hlin]; exact hirr
      · intro p hp; simp only [List.mem_singleton] at hp; subst hp; rw [hlin]; exact hfav
      · intro p hp; simp only [List.mem_singleton] at hp; subst hp; norm_num
      · simp
    have hden : (⟨ul, [([1, 2], 2)]⟩ : Factored (List Int)).denote (polyVal (id : Int → Int)) = pf.denote (polyVal (id : Int → Int)) := by
      rw [← hu]
      simp only [Factored.denote, List.map_cons, List.map_nil, List.prod_cons, List.prod_nil, mul_one, hul, hlin]
      ring
    -- so the factorization has the single factor `2x + 1`
    obtain ⟨-, h1⟩ := Factored.valid_unique intOps_models.toFav.poly pf _ p2 hval hden.symm
    obtain ⟨-, h2⟩ := Factored.valid_unique intOps_models.toFav.poly _ pf hval p2 hden
    obtain ⟨p, hp, hp1, hp2⟩ := h2 ([1, 2], 2) (by simp)
    have hlen : pf.factors = [p] := by
      have hall : ∀ x ∈ pf.factors, polyVal (id : Int → Int) x.1 = 2 * X + 1 := by
        intro x hx
        obtain ⟨y, hy, hy1, -⟩ := h1 x hx
        simp only [List.mem_singleton] at hy
        subst hy
        rw [hy1, hlin]
      have hnd := p2.distinct
      cases hl : pf.factors with
      | nil => rw [hl] at hp; cases hp
      | cons x t =>
        cases t with
        | nil => rw [hl] at hp; simp only [List.mem_singleton] at hp; rw [hp]
        | cons y t =>
          exfalso
          rw [hl] at hnd
          simp only [List.map_cons, List.nodup_cons, List.mem_cons, not_or] at hnd
          apply hnd.1.1
          rw [hall x (by rw [hl]; simp), hall y (by rw [hl]; simp)]
    rw [hlen] at r3
    simp only [List.map_cons, List.map_nil, List.prod_cons, List.prod_nil, mul_one, ← hp1, ← hp2, hlin, hlc] at r3
    rw [p3, Polynomial.map_mul, map_C, ← mul_assoc, ← e4, e] at r3
    have hs : (C (algebraMap ℤ ℚ s) : ℚ[X]) = C (s : ℚ) := rfl
    rw [← hs, ← r3]
    simp [c2]
    ring

/-- The unit split off a factor is multiplied in once, whatever the exponent of the factor: for every correct factoring algorithm
over the integers, the product of the factorization of `(2x + 1)^2` over the rationals is `2 (x + 1/2)^2`. -/
theorem C90_fof_wrong {baseFactor : List Int → Option (Option (Factored (List Int)))}
    (hbf : Factors intOps.toFavOps (id : Int → Int) baseFactor) :
    polyVal (id : ℚ → ℚ) [1, 4, 4] = (2 * X + 1) ^ 2 ∧
    ∃ r, polyFactorizeByPrimitive ratOps intOps.bezout.toGcdOps (fun z : Int => (z : ℚ)) ratNumerator ratDenominator baseFactor
      [1, 4, 4] = some (some r) ∧ 2 * r.denote (polyVal (id : ℚ → ℚ)) = (2 * X + 1) ^ 2 := by
  obtain ⟨e, s, -, rfl, r, r1, r2⟩ := fof_bad_assoc (P := fun s => s = 1) (baseFactor := baseFactor) (fun q hq _ => by
    obtain ⟨pf, p1, p2, p3⟩ := hbf q hq.ne_zero
    exact ⟨pf, p1, p2, 1, isUnit_one, rfl, by rw [p3]; simp⟩)
  exact ⟨e, r, r1, by rw [r2]; simp⟩

section All
variable {α K : Type} [Field K] {S : DomainOps α} {v : α → K} (h : S.Models v)
include h

/-! ## C91: factoring over a finite field by trying all factors -/

/-- `factorize_by_trying_all_factors` over a finite field (one whose nonzero elements are listed by `units`) returns `None` for the zero
polynomial; for every other polynomial it terminates without panicking and returns a factorization of it into monic, pairwise different
irreducible polynomials. -/
theorem C91_try_all (units : List α) (hu : ∀ u, u ≠ 0 → ∃ x ∈ units, v x = u) :
    (∀ f, polyVal v f = 0 → S.factorizeTryAll units f = some none) ∧
    Factors S.fieldFav v (S.factorizeTryAll units) := by
  refine ⟨fun f hf => ?_, fun f hf => factorizeTryAll_spec h units hu f hf⟩
  rw [DomainOps.factorizeTryAll, if_pos ((h.toSemi.poly.isZero f).2 hf)]

/-- The search behind it is exact. -/
theorem C91_find_factor (units : List α) (hu : ∀ u, u ≠ 0 → ∃ x ∈ units, v x = u) (f : List α) (hf : polyVal v f ≠ 0)
    (hn : ¬ IsUnit (polyVal v f)) :
    (S.tryAllFindFactor units f = some .irreducible ∧ Irreducible (polyVal v f)) ∨
    ∃ g k, S.tryAllFindFactor units f = some (.composite g k) ∧ polyVal v f = polyVal v g * polyVal v k ∧
      ¬ IsUnit (polyVal v g) ∧ ¬ IsUnit (polyVal v k) := by
  obtain ⟨r, r1, r2⟩ := tryAllFindFactor_spec h units hu f hf hn
  cases r with
  | irreducible => exact Or.inl ⟨r1, r2⟩
  | composite g k => exact Or.inr ⟨g, k, r1, r2⟩

end All

/-! ## Instances -/

/-- Every presented unique factorization domain has a correct factoring function, so the hypotheses above can be met. -/
theorem exists_factor {α R : Type} [CommRing R] [IsDomain R] [UniqueFactorizationMonoid R] {S : FavOps α} {v : α → R} (h : S.Models v) :
    ∃ fac : α → Option (Option (Factored α)), (∀ a, v a = 0 → fac a = some none) ∧
      ∀ a, v a ≠ 0 → ∃ f, fac a = some (some f) ∧ f.Valid S v ∧ f.denote v = v a := by
  classical
  have key : ∀ a : α, ∃ o : Option (Option (Factored α)), (v a = 0 → o = some none) ∧
      (v a ≠ 0 → ∃ f, o = some (some f) ∧ f.Valid S v ∧ f.denote v = v a) := by
    intro a
    by_cases h0 : v a = 0
    · exact ⟨some none, fun _ => rfl, fun h => absurd h0 h⟩
    · have hsplit : ∀ e : α, ∃ r : FindFactorResult α, v e ≠ 0 → ¬ IsUnit (v e) →
          match r with
          | .irreducible => Irreducible (v e)
          | .composite g k => v e = v g * v k ∧ ¬ IsUnit (v g) ∧ ¬ IsUnit (v k) := by
        intro e
        by_cases hi : Irreducible (v e)
        · exact ⟨.irreducible, fun _ _ => hi⟩
        · by_cases hu : IsUnit (v e)
          · exact ⟨.irreducible, fun _ h => absurd hu h⟩
          · rw [irreducible_iff] at hi
            push Not at hi
            obtain ⟨x, y, hxy, hx, hy⟩ := hi hu
            obtain ⟨x', rfl⟩ := h.toSemi.surj x
            obtain ⟨y', rfl⟩ := h.toSemi.surj y
            exact ⟨.composite x' y', fun _ _ => ⟨hxy, hx, hy⟩⟩
      choose pf hpf using hsplit
      obtain ⟨f, -, f2, f3⟩ := factorizeByFindFactor_spec h (fun e => some (pf e)) (fun e he hu => ⟨pf e, rfl, hpf e he hu⟩) a h0
      exact ⟨some (some f), fun h => absurd h h0, fun _ => ⟨f, rfl, f2, f3⟩⟩
  choose fac h1 h2 using key
  exact ⟨fac, h1, h2⟩

theorem exists_intUfd : ∃ factor, (intUfd factor).Models (id : Int → Int) := by
  obtain ⟨fac, f1, f2⟩ := exists_factor intOps_models.toFav
  exact ⟨fac, intOps_models.bezout.toGcd, f1, f2⟩

/-- `C88`, `C89` apply to the integers, with the gcd of `Polynomial<Integer>`. -/
example : ∃ factor, ∃ r, (intUfd factor).factorizeKronecker (intUfd factor).polyGcdPrimSub intUnits [-6, 0, 0, 2, 0, 12, 4] = some (some r) ∧
    r.Valid intOps.toFavOps.poly (polyVal (id : Int → Int)) := by
  obtain ⟨factor, h⟩ := exists_intUfd
  obtain ⟨r, r1, r2, -⟩ := (C89_kronecker_partial h h.polyGcdPrimSub_prim intUnits intUnits_spec.1 intUnits_spec.2).2
    [-6, 0, 0, 2, 0, 12, 4] (int_poly_ne _ (by decide))
  exact ⟨factor, r, r1, r2⟩

/-- `C90` applies to the rationals. -/
example : ∃ baseFactor, FactorsUpToUnit intOps.toFavOps (id : Int → Int) baseFactor := by
  obtain ⟨factor, h⟩ := exists_intUfd
  exact ⟨_, (C89_kronecker_partial h h.polyGcdPrimSub_prim intUnits intUnits_spec.1 intUnits_spec.2).2⟩

example : ∃ baseFactor, Factors intOps.toFavOps (id : Int → Int) baseFactor := by
  obtain ⟨fac, -, f2⟩ := exists_factor intOps_models.toFav.poly
  exact ⟨fac, f2⟩

/-- `C91` applies to the field with four elements. -/
example : ∃ r, quatOps.toDomainOps.factorizeTryAll quatOps.allUnits [.one, .zero, .one, .one] = some (some r) ∧
    r.denote (polyVal (id : Quat → Quat)) = polyVal id [.one, .zero, .one, .one] := by
  obtain ⟨r, r1, -, r3⟩ := (C91_try_all quatOps_models_id.toDomain quatOps.allUnits (fun u hu => by
    obtain ⟨x, hx, e⟩ := List.mem_map.1 (quatOps_models_id.units_all u hu)
    exact ⟨x, hx, e⟩)).2 [.one, .zero, .one, .one] (fun e => by
      have := congrArg (fun p => Polynomial.coeff p 0) e
      simp [polyVal_cons] at this)
  exact ⟨r, r1, r3⟩

end Verif.Rings
