import Verif.Proofs.Yun
import Verif.Proofs.Kronecker
import Verif.Props.Polynomial

/-!
# Yun's algorithm on `(x^2 - x - 1)^2`
-/

namespace Verif.Rings

open Polynomial

/-- the gcd of the integers in closed form -/
theorem int_gcd (x y : Int) : intOps.euclideanGcd x y = some (Int.gcd x y : Int) := by
  obtain ⟨g, g1, g2, g3⟩ := intOps_models.bezout.gcd x y
  have g1' : intOps.euclideanGcd x y = some g := g1
  rw [g1']
  congr 1
  have ha : Associated g (Int.gcd x y : Int) := by
    apply associated_of_dvd_dvd
    · exact Int.dvd_coe_gcd (g2.1 x (by simp)) (g2.1 y (by simp))
    · exact g2.2 _ (fun z hz => by
        rcases hz with rfl | rfl
        · exact Int.gcd_dvd_left ..
        · exact Int.gcd_dvd_right ..)
  have h0 : g = ((intFav g).2 : Int) := by
    have := g3 g (intFav g).1 (intFav g).2 rfl rfl
    exact this.symm
  have h1 : 0 ≤ g := by
    rw [h0]
    unfold intFav
    split
    · simp
    · split <;> simp <;> omega
  have := Int.associated_iff_natAbs.1 ha
  omega

/-- the integers with the gcd in closed form -/
def intGcdFast : GcdOps Int where
  toFavOps := intOps.toFavOps
  gcd x y := some (Int.gcd x y : Int)

theorem intGcdFast_eq : intOps.bezout.toGcdOps = intGcdFast := by
  unfold intGcdFast EucOps.bezout
  simp only
  congr 1
  funext x y
  exact int_gcd x y

/-- the loop of the remainder sequence with a bound on the number of turns -/
def prsFuel (S : DomainOps α) : Nat → PrsState α → Option (List (List α) × List α)
  | 0, _ => none
  | n + 1, st =>
    match S.polyDegree st.r with
    | some rDeg => (S.prsStep st rDeg).bind (prsFuel S n)
    | none => (assertThat (S.toSemiRingOps.poly.isZero st.r)).bind fun _ => some (st.prs, st.ssres)

theorem prsFuel_eq (S : DomainOps α) (n : Nat) : ∀ st r, prsFuel S n st = some r → S.prsLoop st = some r := by
  induction n with
  | zero => intro st r h; cases h
  | succ n ih =>
    intro st r h
    rw [DomainOps.prsLoop]
    rw [prsFuel] at h
    cases hd : S.polyDegree st.r with
    | none => rw [hd] at h; exact h
    | some k =>
      rw [hd] at h
      simp only [Option.bind_eq_bind] at h ⊢
      cases hs : S.prsStep st k with
      | none => rw [hs] at h; cases h
      | some st' => rw [hs] at h; exact ih st' r h

/-- the general case of the gcd with a bound on the length of the remainder sequence, for `deg a ≥ deg b` -/
def gcdFuel (S : GcdOps α) (n : Nat) (a b : List α) : Option (List α) := do
  let pa ← S.polyFactorPrimitiveUnwrap a
  let pb ← S.polyFactorPrimitiveUnwrap b
  let gUnit ← S.gcd pa.1 pb.1
  let aDeg ← S.polyDegree pa.2
  let bDeg ← S.polyDegree pb.2
  assertThat (decide (¬ aDeg < bDeg))
  let d := aDeg - bDeg
  let beta := S.natPow (S.neg S.one) (d + 1)
  let pr ← S.polyPremUnwrap pa.2 pb.2
  let lcB ← S.polyLeadingCoeff pb.2
  let gamma := S.natPow lcB d
  let t ← prsFuel S.toDomainOps n ⟨[pa.2, pb.2], [S.one, gamma], pb.2, bDeg, S.polyMulScalar pr beta, lcB, S.neg gamma⟩
  let s ← t.1.getLast?
  let gp ← S.polyFactorPrimitiveUnwrap s
  let pp ← S.polyPrimitivePart (S.polyMul (polyConst gUnit) gp.2)
  pp

theorem gcdFuel_eq (S : GcdOps α) (n : Nat) (a b r : List α) (h : gcdFuel S n a b = some r) :
    S.polyGcdPrimSubCore a b = some r := by
  simp only [gcdFuel, Option.bind_eq_bind, Option.bind_eq_some_iff] at h
  obtain ⟨pa, e1, pb, e2, gu, e3, ad, e4, bd, e5, u6, e6, pr, e7, lc, e8, t, e9, s, e10, gp, e11, pp, e12, e13⟩ := h
  have h6 : ¬ ad < bd := by
    unfold assertThat at e6
    split at e6
    · next h => simpa using h
    · cases e6
  have h9 := prsFuel_eq _ _ _ _ e9
  simp only [GcdOps.polyGcdPrimSubCore, DomainOps.polySubresultantGcd, DomainOps.polyPrs, DomainOps.prsOrdered, Option.bind_eq_bind,
    e1, e2, e3, e4, e5, if_neg h6, e7, e8, h9, e10, e11, e12, e13, Option.bind_some]

/-- the polynomial `(x^2 - x - 1)^2` -/
def yunBad : List Int := [1, 2, -1, -2, 1]


theorem yunBad_gcd1 : intOps.bezout.toGcdOps.polyGcdPrimSub yunBad (intOps.polyDerivative yunBad) = some [1, 1, -1] := by
  rw [intGcdFast_eq, GcdOps.polyGcdPrimSub, if_neg (by decide +kernel), if_neg (by decide +kernel)]
  exact gcdFuel_eq _ 10 _ _ _ (by decide +kernel)

theorem yunBad_gcd2 : intOps.bezout.toGcdOps.polyGcdPrimSub [1, 1, -1] [1, -2] = some [1] := by
  rw [intGcdFast_eq, GcdOps.polyGcdPrimSub, if_neg (by decide +kernel), if_neg (by decide +kernel)]
  exact gcdFuel_eq _ 10 _ _ _ (by decide +kernel)

theorem yunBad_gcd3 : intOps.bezout.toGcdOps.polyGcdPrimSub [1, 1, -1] [] = some [1, 1, -1] := by
  rw [intGcdFast_eq, GcdOps.polyGcdPrimSub, if_neg (by decide), if_pos (by decide)]

theorem int_isFav_pos {p : ℤ[X]} (hp : intOps.toFavOps.poly.IsFav (polyVal (id : Int → Int)) p) (h0 : p ≠ 0) : 0 < p.leadingCoeff := by
  obtain ⟨a, ha⟩ := intOps_models.toSemi.poly.surj p
  have hne : polyVal (id : Int → Int) a ≠ 0 := by rw [ha]; exact h0
  obtain ⟨l, u, c, g, l1, l2, l3, l4, l5, l6⟩ := intOps_models.toFav.polyFactorFavAssoc_ne a hne
  have hg := hp a _ _ ha l5
  rw [ha] at l1
  have l2' : intFav l = (u, c) := by
    have : intOps.factorFavAssoc l = some (intFav l) := rfl
    rw [this] at l2
    exact Option.some.inj l2
  have l1' : l = p.leadingCoeff := l1
  have hl : p.leadingCoeff ≠ 0 := leadingCoeff_ne_zero.2 h0
  have hu : u = if l < 0 then -1 else 1 := by
    unfold intFav at l2'
    rw [if_neg (by rw [l1']; exact hl)] at l2'
    split at l2' <;> (rename_i h; cases l2'; simp [h])
  rw [ha, hg] at l6
  by_contra hc
  have : l < 0 := by rw [l1']; omega
  rw [if_pos this] at hu
  have h7 := congrArg leadingCoeff l6
  rw [leadingCoeff_mul, leadingCoeff_C, hu] at h7
  simp only [id] at h7
  omega

/-- the unit of a valid factorization has the sign of the leading coefficient -/
theorem int_unit_of_valid {f : Factored (List Int)} (hf : f.Valid intOps.toFavOps.poly (polyVal (id : Int → Int)))
    (hneg : (f.denote (polyVal (id : Int → Int))).leadingCoeff < 0) : polyVal (id : Int → Int) f.unit = -1 := by
  have hpos : 0 < ((f.factors.map fun p => polyVal (id : Int → Int) p.1 ^ p.2).prod).leadingCoeff := by
    have : ∀ l : List (List Int × Nat), (∀ p ∈ l, 0 < (polyVal (id : Int → Int) p.1).leadingCoeff) →
        0 < ((l.map fun p => polyVal (id : Int → Int) p.1 ^ p.2).prod).leadingCoeff := by
      intro l
      induction l with
      | nil => intro _; simp
      | cons p l ih =>
        intro hl
        rw [List.map_cons, List.prod_cons, leadingCoeff_mul, leadingCoeff_pow]
        exact mul_pos (pow_pos (hl p List.mem_cons_self) _) (ih fun q hq => hl q (List.mem_cons_of_mem _ hq))
    exact this _ fun p hp => int_isFav_pos (hf.fav p hp) (hf.irreducible p hp).ne_zero
  rw [Factored.denote, leadingCoeff_mul] at hneg
  obtain ⟨c, hc, e⟩ := Polynomial.isUnit_iff.1 hf.unit
  rw [← e, leadingCoeff_C] at hneg
  have hc' := Int.isUnit_iff.1 hc
  rcases hc' with rfl | rfl
  · omega
  · rw [← e]; simp


theorem yunBad_poly : polyVal (id : Int → Int) [1, 1, -1] = -(X ^ 2 - X - 1) := by
  simp [polyVal_cons]; ring

theorem yunBad_monic : (X ^ 2 - X - 1 : ℤ[X]).Monic := by
  have e : (X ^ 2 - X - 1 : ℤ[X]) = X ^ 2 - (X + 1) := by ring
  rw [e]
  apply monic_X_pow_sub
  rw [show (X + 1 : ℤ[X]) = X + C 1 by simp, degree_X_add_C]
  norm_num

theorem yunBad_squarefree : Squarefree (X ^ 2 - X - 1 : ℤ[X]) := by
  intro g hg
  obtain ⟨q, hq⟩ := hg
  have h1 : g ∣ X ^ 2 - X - 1 := ⟨g * q, by rw [hq]; ring⟩
  have h2 : g ∣ derivative (X ^ 2 - X - 1 : ℤ[X]) := by
    rw [hq]
    simp only [derivative_mul]
    exact ⟨derivative g * q + derivative g * q + g * derivative q, by ring⟩
  have e : derivative (X ^ 2 - X - 1 : ℤ[X]) = 2 * X - 1 := by simp
  rw [e] at h2
  have h3 : g ∣ C 5 := by
    have : (C 5 : ℤ[X]) = (2 * X - 1) * (2 * X - 1) - 4 * (X ^ 2 - X - 1) := by
      rw [show (C 5 : ℤ[X]) = 5 by rfl]; ring
    rw [this]
    exact dvd_sub (h2.mul_right _) (h1.mul_left _)
  have h4 : g.natDegree = 0 := by
    have := natDegree_le_of_dvd h3 (by simp)
    simpa using this
  rw [eq_C_of_natDegree_eq_zero h4] at h1 ⊢
  exact isUnit_C.2 (yunBad_monic.isPrimitive _ h1)

section Run
variable {factor : Int → Option (Option (Factored Int))} (h : (intUfd factor).Models (id : Int → Int))
  {sq : List Int → Option (Factored (List Int))}
  (hsq : ∀ a ∈ [[1], [1, 1, -1]], (polyVal (id : Int → Int) a).IsPrimitive → Squarefree (polyVal (id : Int → Int) a) →
    ∃ r, sq a = some r ∧ r.Valid (intUfd factor).toFavOps.poly (polyVal (id : Int → Int)) ∧
      r.denote (polyVal (id : Int → Int)) = polyVal (id : Int → Int) a)
include h hsq

/-- On `(x^2 - x - 1)^2` the algorithm returns a factorization of `-(x^2 - x - 1)^2`. -/
theorem yunBad_run : ∃ r, (intUfd factor).factorizeYun intOps.bezout.toGcdOps.polyGcdPrimSub sq yunBad = some r ∧
    r.denote (polyVal (id : Int → Int)) = -polyVal (id : Int → Int) yunBad := by
  have hP := h.toFav.poly
  have hval : polyVal (id : Int → Int) yunBad = (X ^ 2 - X - 1) ^ 2 := by
    simp [yunBad, polyVal_cons]; ring
  -- the content
  obtain ⟨cf, c1, c2, c3⟩ := h.factorUnwrap (1 : Int) (by simp)
  obtain ⟨k1, k2⟩ := h.polyConstFactored c2
  rw [c3] at k2
  have e0 : (intUfd factor).polyFactorPrimitiveUnwrap yunBad = some (1, yunBad) := by
    show intOps.bezout.toGcdOps.polyFactorPrimitiveUnwrap yunBad = _
    rw [intGcdFast_eq]; decide +kernel
  -- the start
  have e1 : (intUfd factor).yunInit (polyConstFactored cf) yunBad = some ⟨polyConstFactored cf, yunBad, [1, 1, -1], [1, -2], 1⟩ := by
    have g1 : (intUfd factor).polyGcdPrimSub yunBad ((intUfd factor).polyDerivative yunBad) = some [1, 1, -1] := yunBad_gcd1
    have g2 : unwrapDiv ((intUfd factor).polyDiv yunBad [1, 1, -1]) = some [1, 1, -1] :=
      (by decide +kernel : unwrapDiv (intOps.polyDiv yunBad [1, 1, -1]) = some [1, 1, -1])
    have g3 : unwrapDiv ((intUfd factor).polyDiv ((intUfd factor).polyDerivative yunBad) [1, 1, -1]) = some [2, -4] :=
      (by decide +kernel : unwrapDiv (intOps.polyDiv (intOps.polyDerivative yunBad) [1, 1, -1]) = some [2, -4])
    have g4 : (intUfd factor).yunD [1, 1, -1] [2, -4] = [1, -2] := (by decide +kernel : intOps.yunD [1, 1, -1] [2, -4] = [1, -2])
    simp only [UfdOps.yunInit, g1, g2, g3, g4, Option.bind_eq_bind, Option.bind_some]
  -- the first turn
  have hone : polyVal (id : Int → Int) [1] = 1 := by simp [polyVal_cons]
  obtain ⟨f1, u1, u2, u3⟩ := hsq [1] (by simp) (by rw [hone]; exact isPrimitive_one) (by rw [hone]; exact squarefree_one)
  obtain ⟨m1, v1, v2, v3⟩ := Factored.mul_spec hP (polyConstFactored cf) (f1.pow 1) k1.fav (Factored.pow_valid u2 1 one_pos).fav
  have hm1 := v3 k1 (Factored.pow_valid u2 1 one_pos)
  have hd1 : m1.denote (polyVal (id : Int → Int)) = 1 := by
    have := Factored.pow_denote (v := polyVal (id : Int → Int)) f1 0
    rw [pow_zero, mul_one, zero_add, pow_one, u3, hone] at this
    rw [v2, k2, this]; simp
  have e2 : (intUfd factor).yunStep intOps.bezout.toGcdOps.polyGcdPrimSub sq
      ⟨polyConstFactored cf, yunBad, [1, 1, -1], [1, -2], 1⟩ = some ⟨m1, yunBad, [1, 1, -1], [], 2⟩ := by
    have g2 : unwrapDiv ((intUfd factor).polyDiv yunBad ((intUfd factor).toSemiRingOps.poly.natPow [1] 1)) = some yunBad :=
      (by decide +kernel : unwrapDiv (intOps.polyDiv yunBad (intOps.toSemiRingOps.poly.natPow [1] 1)) = some yunBad)
    have g3 : unwrapDiv ((intUfd factor).polyDiv [1, 1, -1] [1]) = some [1, 1, -1] :=
      (by decide +kernel : unwrapDiv (intOps.polyDiv [1, 1, -1] [1]) = some [1, 1, -1])
    have g4 : unwrapDiv ((intUfd factor).polyDiv [1, -2] [1]) = some [1, -2] :=
      (by decide +kernel : unwrapDiv (intOps.polyDiv [1, -2] [1]) = some [1, -2])
    have g5 : (intUfd factor).yunD [1, 1, -1] [1, -2] = [] := (by decide +kernel : intOps.yunD [1, 1, -1] [1, -2] = [])
    simp only [UfdOps.yunStep, yunBad_gcd2, u1, v1, g2, g3, g4, g5, Option.bind_eq_bind, Option.bind_some]
  -- the second turn
  have hsqf : Squarefree (polyVal (id : Int → Int) [1, 1, -1]) := by
    rw [yunBad_poly]
    exact (Associated.neg_left (Associated.refl _)).symm.squarefree_iff.1 yunBad_squarefree
  have hprim : (polyVal (id : Int → Int) [1, 1, -1]).IsPrimitive := by
    rw [yunBad_poly]
    exact isPrim_of_dvd yunBad_monic.isPrimitive (neg_dvd.2 dvd_rfl)
  obtain ⟨f2, x1, x2, x3⟩ := hsq [1, 1, -1] (by simp) hprim hsqf
  obtain ⟨m2, y1, y2, y3⟩ := Factored.mul_spec hP m1 (f2.pow 2) hm1.fav (Factored.pow_valid x2 2 two_pos).fav
  have hm2 := y3 hm1 (Factored.pow_valid x2 2 two_pos)
  have hd2 : m2.denote (polyVal (id : Int → Int)) = -(X ^ 2 - X - 1) ^ 2 := by
    have hu : polyVal (id : Int → Int) f2.unit = -1 := by
      refine int_unit_of_valid x2 ?_
      rw [x3, yunBad_poly, leadingCoeff_neg, yunBad_monic.leadingCoeff]
      norm_num
    have := Factored.pow_denote (v := polyVal (id : Int → Int)) f2 1
    rw [hu, x3, yunBad_poly] at this
    rw [y2, hd1, one_mul]
    have h2 : (f2.pow (1 + 1)).denote (polyVal (id : Int → Int)) = -(-(X ^ 2 - X - 1)) ^ (1 + 1) := by rw [← this]; ring
    rw [show (2 : Nat) = 1 + 1 by rfl, h2]
    ring
  have e3 : (intUfd factor).yunStep intOps.bezout.toGcdOps.polyGcdPrimSub sq
      ⟨m1, yunBad, [1, 1, -1], [], 2⟩ = some ⟨m2, [1], [1], [], 3⟩ := by
    have g2 : unwrapDiv ((intUfd factor).polyDiv yunBad ((intUfd factor).toSemiRingOps.poly.natPow [1, 1, -1] 2)) = some [1] :=
      (by decide +kernel : unwrapDiv (intOps.polyDiv yunBad (intOps.toSemiRingOps.poly.natPow [1, 1, -1] 2)) = some [1])
    have g3 : unwrapDiv ((intUfd factor).polyDiv [1, 1, -1] [1, 1, -1]) = some [1] :=
      (by decide +kernel : unwrapDiv (intOps.polyDiv [1, 1, -1] [1, 1, -1]) = some [1])
    have g4 : unwrapDiv ((intUfd factor).polyDiv [] [1, 1, -1]) = some [] :=
      (by decide +kernel : unwrapDiv (intOps.polyDiv [] [1, 1, -1]) = some [])
    have g5 : (intUfd factor).yunD [1] [] = [] := (by decide +kernel : intOps.yunD [1] [] = [])
    simp only [UfdOps.yunStep, yunBad_gcd3, x1, y1, g2, g3, g4, g5, Option.bind_eq_bind, Option.bind_some]
  -- the loop
  have e4 : (intUfd factor).yunLoop intOps.bezout.toGcdOps.polyGcdPrimSub sq
      ⟨polyConstFactored cf, yunBad, [1, 1, -1], [1, -2], 1⟩ = some ⟨m2, [1], [1], [], 3⟩ := by
    have d1 : (intUfd factor).polyDegree yunBad = some 4 := (by decide +kernel : intOps.polyDegree yunBad = some 4)
    have d2 : (intUfd factor).polyDegree [1] = some 0 := (by decide +kernel : intOps.polyDegree [1] = some 0)
    rw [UfdOps.yunLoop]
    simp only [d1, e2, Option.bind_eq_bind, Option.bind_some]
    rw [if_pos (by decide), UfdOps.yunLoop]
    simp only [d1, e3, Option.bind_eq_bind, Option.bind_some]
    rw [if_pos (by decide), UfdOps.yunLoop]
    simp only [d2, Option.bind_eq_bind, Option.bind_some]
    rw [if_neg (by decide)]
  obtain ⟨r, r1, r2, -⟩ := Factored.mul_spec hP m2 (Factored.factoredUnit [1]) hm2.fav (by simp [Factored.factoredUnit])
  refine ⟨r, ?_, ?_⟩
  · have hz : (intUfd factor).toSemiRingOps.poly.isZero yunBad = false :=
      (by decide +kernel : intOps.toSemiRingOps.poly.isZero yunBad = false)
    rw [UfdOps.factorizeYun]
    simp only [hz, Bool.not_false, assertThat, if_true, e0, c1, e1, e4, Option.bind_eq_bind, Option.bind_some]
    exact r1
  · rw [r2, hd2, hval]
    simp [Factored.denote, Factored.factoredUnit, hone]

end Run

end Verif.Rings
