import Verif.Proofs.RealAlgCmp
import Verif.Proofs.YunWrong
import Verif.Props.Factored

/-!
# The invariants of real algebraic numbers are checked successfully
-/

namespace Verif.RealRoots

open Polynomial Verif.Rings

theorem intPoly_models : intPoly.Models (polyVal (id : Int → Int)) := intGcd_models.toFav.poly

/-- The favourite associate of an integer polynomial has a positive leading coefficient. -/
theorem intFavAssoc_spec {p : List Int} (h : ipoly p ≠ 0) :
    ∃ u w, intPoly.factorFavAssoc p = some ([u], w) ∧ u = (if (ipoly p).leadingCoeff < 0 then -1 else 1) ∧ ipoly p = C u * ipoly w ∧
      0 < (ipoly w).leadingCoeff ∧ w.length = p.length := by
  obtain ⟨l, u, c, w, l1, l2, l3, l4, l5, l6⟩ := intGcd_models.toFav.polyFactorFavAssoc_ne p h
  have l1' : l = (ipoly p).leadingCoeff := l1
  have hl : l ≠ 0 := by rw [l1']; exact leadingCoeff_ne_zero.2 h
  have l2' : intFav l = (u, c) := Option.some.inj l2
  have hu : u = if l < 0 then -1 else 1 := by
    unfold intFav at l2'
    rw [if_neg hl] at l2'
    split at l2' <;> (rename_i h; cases l2'; simp [h])
  refine ⟨u, w, l5, by rw [hu, l1'], l6, ?_, ?_⟩
  · have h7 := congrArg leadingCoeff l6
    rw [leadingCoeff_mul, leadingCoeff_C, ← l1', hu] at h7
    simp only [id] at h7
    split at h7 <;> omega
  · have l5' := l5
    rw [FavOps.polyFactorFavAssoc, if_neg (fun e => h ((intGcd_models.toSemi.poly.isZero p).1 e))] at l5'
    simp only [Option.bind_eq_bind, Option.bind_eq_some_iff] at l5'
    obtain ⟨uc, -, a', ha, he⟩ := l5'
    have : a' = w := by simp at he; exact he.2
    subst this
    exact mapM_length _ _ _ ha

theorem intFavAssoc_reduced {p w u : List Int} (h : ipoly p ≠ 0) (hr : PolyReduced (id : Int → Int) p)
    (e : intPoly.factorFavAssoc p = some (u, w)) : PolyReduced (id : Int → Int) w := by
  obtain ⟨c, w', h1, h2, h3, h4, h5⟩ := intFavAssoc_spec h
  rw [e] at h1
  simp only [Option.some.injEq, Prod.mk.injEq] at h1
  obtain ⟨-, rfl⟩ := h1
  have hw : ipoly w ≠ 0 := fun e => by rw [h3, e, mul_zero] at h; exact h rfl
  apply reduced_of_length hw
  rw [h5, reduced_length hr h, h3, natDegree_C_mul]
  rw [h2]; split <;> simp

/-- `is_irreducible` of an irreducible polynomial. -/
theorem isIrreducible_ok {fac : Fac} (hf : FacOk fac) {p : List Int} (h : Irreducible (ipoly p)) : isIrreducibleBy fac p = some true := by
  obtain ⟨pf, e, hv, ha⟩ := hf.factors p h.ne_zero
  rw [isIrreducibleBy, e, Option.map_some]
  congr 1
  rw [Factored.C43_is_irreducible intGcd_models.toFav.poly pf hv, Factored.expand_eq intGcd_models.toFav.poly.toSemi]
  exact ha.symm.irreducible h

theorem isIrreducible_iff {fac : Fac} (hf : FacOk fac) {p : List Int} (h0 : ipoly p ≠ 0) : isIrreducibleBy fac p = some true ↔ Irreducible (ipoly p) := by
  refine ⟨fun h => ?_, isIrreducible_ok hf⟩
  obtain ⟨pf, e, hv, ha⟩ := hf.factors p h0
  rw [isIrreducibleBy, e, Option.map_some, Option.some_inj] at h
  rw [Factored.C43_is_irreducible intGcd_models.toFav.poly pf hv, Factored.expand_eq intGcd_models.toFav.poly.toSemi] at h
  exact ha.irreducible h

/-- The squarefree part of a normalised irreducible polynomial is the polynomial, up to sign. -/
theorem sqfree_fav_ok {p : List Int} (h : Irreducible (ipoly p)) (hd : 0 < (ipoly p).natDegree) (hp : 0 < (ipoly p).leadingCoeff) :
    ∃ s u w, intGcd.polyPrimSquarefreePart p = some s ∧ intPoly.factorFavAssoc s = some (u, w) ∧ intPoly.equal p w = true := by
  obtain ⟨s, s1, s2, s3, s4, s5⟩ := polyPrimSquarefreePart_spec intGcd_models p h.ne_zero
  have hs0 : ipoly s ≠ 0 := s2.ne_zero
  obtain ⟨u, w, w1, w2, w3, w4, -⟩ := intFavAssoc_spec hs0
  refine ⟨s, _, w, s1, w1, (intPoly_models.toSemi.equal p w).2 ?_⟩
  have hps : Associated (ipoly p) (ipoly s) := associated_of_dvd_dvd (s5 _ h hd (dvd_refl _)) s4
  have hsw : Associated (ipoly s) (ipoly w) := by
    rw [w3]
    have hu : IsUnit (C u) := by
      rw [isUnit_C, w2]; split <;> simp
    exact (associated_isUnit_mul_left_iff hu).2 (Associated.refl _)
  exact assoc_pos (hps.trans hsw) hp w4

theorem boundsLt_of_within {oa ob : Option ℚ} {r : ℝ} (h : Within oa ob r) : boundsLt oa ob = true := by
  cases oa with
  | none => rfl
  | some a =>
    cases ob with
    | none => rfl
    | some b =>
      have h1 := h.1 a rfl
      have h2 := h.2 b rfl
      have : a < b := by exact_mod_cast h1.trans h2
      simp [boundsLt, this]

/-- The checks succeed on every root. -/
theorem ARoot.Is.check {fac : Fac} (hf : FacOk fac) {x : ARoot} {r : ℝ} (h : x.Is r) : x.check fac = some true := by
  obtain ⟨s, u, w, s1, s2, s3⟩ := sqfree_fav_ok h.irreducible (by have := h.degree; omega) h.positive
  have hdeg := intGcd_models.toSemi.polyDegree_some x.poly h.irreducible.ne_zero
  have h1 : evalAtRat x.poly x.ta ≠ 0 := fun e => h.irrational _ ((evalAtRat_zero _ _).1 e)
  have h2 : evalAtRat x.poly x.tb ≠ 0 := fun e => h.irrational _ ((evalAtRat_zero _ _).1 e)
  have hd := h.degree
  unfold ARoot.check
  rw [if_neg (by simp [h.lt, boundsLt_of_within h.within])]
  simp only [s1, s2, Option.bind_eq_bind, Option.bind_some]
  rw [if_neg (by rw [s3]; simp), isIrreducible_ok hf h.irreducible]
  simp only [Option.bind_some]
  rw [if_neg (by simp), hdeg]
  simp only [Option.bind_some]
  rw [if_neg (by change ¬ (ipoly x.poly).natDegree < 2; omega)]
  have hsign := h.tight.2.2.2.2
  have e1 : (evalAtRat x.poly x.ta != 0) = true := by simpa using h1
  have e2 : (evalAtRat x.poly x.tb != 0) = true := by simpa using h2
  simp only [e1, e2, assertThat, if_true, Option.bind_some]
  cases hdir : x.dir with
  | true =>
    rw [hdir] at hsign
    have a : ¬ evalAtRat x.poly x.ta > 0 := by
      have := (evalAtRat_neg x.poly x.ta).2 hsign.1
      exact not_lt.2 this.le
    have b : evalAtRat x.poly x.tb > 0 := (evalAtRat_pos x.poly x.tb).2 hsign.2
    simp [a, b]
  | false =>
    rw [hdir] at hsign
    have b : ¬ evalAtRat x.poly x.tb > 0 := by
      have := (evalAtRat_neg x.poly x.tb).2 hsign.2
      exact not_lt.2 this.le
    have a : evalAtRat x.poly x.ta > 0 := (evalAtRat_pos x.poly x.ta).2 hsign.1
    simp [a, b]

theorem ARoot.Is.checked {fac : Fac} (hf : FacOk fac) {x : ARoot} {r : ℝ} (h : x.Is r) : ARoot.checked fac x = some x := by
  unfold ARoot.checked
  simp only [h.check hf, assertThat, if_true, Option.bind_eq_bind, Option.bind_some]

theorem RealAlg.Is.check {fac : Fac} (hf : FacOk fac) {x : RealAlg} {r : ℝ} (h : x.Is r) : x.check fac = some true := by
  cases x with
  | rat a => rfl
  | real x => exact ARoot.Is.check hf h

end Verif.RealRoots
