import Mathlib.LinearAlgebra.Matrix.Charpoly.Minpoly
import Mathlib.LinearAlgebra.Matrix.ToLinearEquiv
import Verif.Proofs.Smith
import Verif.Proofs.PolyDivision

namespace Verif.Rings

open Polynomial Matrix

section Gen
variable {R : Type} [CommRing R] {n : Nat} {U M V D Q B : Matrix (Fin n) (Fin n) R} {s : R}

theorem smith_back (e : D = U * M * V) (hV : IsUnit V.det) (h : Q * D = s • (1 : Matrix (Fin n) (Fin n) R)) :
    (V * (Q * U)) * M = s • (1 : Matrix (Fin n) (Fin n) R) := by
  have h3 : (Q * U * M) * V = s • (1 : Matrix (Fin n) (Fin n) R) := by
    rw [← h, e]
    simp only [Matrix.mul_assoc]
  have h4 : V * ((Q * U * M) * V) * V⁻¹ = V * (s • 1) * V⁻¹ := by rw [h3]
  rw [Matrix.mul_smul, Matrix.smul_mul, Matrix.mul_one, Matrix.mul_nonsing_inv _ hV, Matrix.mul_assoc,
    Matrix.mul_assoc _ V, Matrix.mul_nonsing_inv _ hV, Matrix.mul_one] at h4
  rw [← h4, Matrix.mul_assoc]

theorem smith_forth (e : D = U * M * V) (hU : IsUnit U.det) (hV : IsUnit V.det) (h : s • (1 : Matrix (Fin n) (Fin n) R) = B * M) :
    ∃ B', s • (1 : Matrix (Fin n) (Fin n) R) = B' * D := by
  refine ⟨V⁻¹ * B * U⁻¹, ?_⟩
  have h1 : M = U⁻¹ * D * V⁻¹ := by
    rw [e, Matrix.mul_assoc, Matrix.mul_assoc, Matrix.mul_assoc, Matrix.mul_nonsing_inv _ hV, Matrix.mul_one, ← Matrix.mul_assoc,
      Matrix.nonsing_inv_mul _ hU, Matrix.one_mul]
  have h3 : V⁻¹ * (s • 1) * V = V⁻¹ * (B * (U⁻¹ * D * V⁻¹)) * V := by rw [h, ← h1]
  rw [Matrix.mul_smul, Matrix.smul_mul, Matrix.mul_one, Matrix.nonsing_inv_mul _ hV] at h3
  rw [h3]
  simp only [Matrix.mul_assoc]
  rw [Matrix.nonsing_inv_mul _ hV, Matrix.mul_one]

end Gen

section Math
variable {K : Type} [Field K] {n : Nat} (A : Matrix (Fin n) (Fin n) K)

theorem det_presentation : IsUnit ((-1 : K[X]) ^ n) ∧ (A.map C - Matrix.diagonal fun _ => X).det = (-1) ^ n * A.charpoly := by
  refine ⟨(isUnit_one.neg).pow n, ?_⟩
  have : A.map C - (Matrix.diagonal fun _ => X) = -A.charmatrix := by
    rw [charmatrix, neg_sub]; rfl
  rw [this, Matrix.det_neg, Matrix.charpoly, Fintype.card_fin]

theorem charpoly_of_smith {U D V : Matrix (Fin n) (Fin n) K[X]} (e : D = U * (A.map C - Matrix.diagonal fun _ => X) * V)
    (hU : IsUnit U.det) (hV : IsUnit V.det) (hd : ∀ i j, i ≠ j → D i j = 0) (hm : ∀ i, (D i i).Monic) : ∏ i, D i i = A.charpoly := by
  have hD : D.det = ∏ i, D i i := by
    conv_lhs => rw [show D = Matrix.diagonal fun i => D i i from by
      ext1 i j
      by_cases hij : i = j
      · subst hij; simp
      · rw [Matrix.diagonal_apply_ne _ hij, hd i j hij]]
    rw [Matrix.det_diagonal]
  refine Polynomial.eq_of_monic_of_associated (monic_prod_of_monic _ _ fun i _ => hm i) A.charpoly_monic ?_
  rw [← hD, e, Matrix.det_mul, Matrix.det_mul, (det_presentation A).2]
  have := (det_presentation A).1
  refine ((associated_mul_unit_left _ _ hV).trans ?_)
  refine (associated_unit_mul_left _ _ hU).trans (associated_unit_mul_left _ _ this)

/-- division by the characteristic matrix, with the value of the polynomial as the remainder -/
theorem exists_div_charmatrix (p : K[X]) : ∃ B : Matrix (Fin n) (Fin n) K[X], p • (1 : Matrix (Fin n) (Fin n) K[X]) = B * A.charmatrix + (aeval A p).map C := by
  induction p using Polynomial.induction_on' with
  | add p q hp hq =>
    obtain ⟨B, hB⟩ := hp
    obtain ⟨B', hB'⟩ := hq
    refine ⟨B + B', ?_⟩
    rw [add_smul, hB, hB', map_add, Matrix.add_mul, Matrix.map_add _ (by simp)]
    abel
  | monomial k a =>
    induction k with
    | zero =>
      refine ⟨0, ?_⟩
      rw [Matrix.zero_mul, zero_add, monomial_zero_left, aeval_C]
      ext1 i j
      by_cases hij : i = j
      · subst hij; simp [Matrix.algebraMap_matrix_apply]
      · simp [Matrix.algebraMap_matrix_apply, hij]
    | succ k ih =>
      obtain ⟨B, hB⟩ := ih
      refine ⟨(X : K[X]) • B + (aeval A (monomial k a)).map (C : K →+* K[X]), ?_⟩
      have hX : (X : K[X]) • (1 : Matrix (Fin n) (Fin n) K[X]) = A.charmatrix + A.map C := by
        rw [charmatrix, RingHom.mapMatrix_apply, sub_add_cancel]
        ext1 i j
        by_cases hij : i = j
        · subst hij; simp
        · simp [hij]
      rw [← X_mul_monomial (R := K), mul_smul, hB, smul_add, map_mul, aeval_X]
      have hcomm : A * aeval A (monomial k a) = aeval A (monomial k a) * A := by
        have : aeval A (X * monomial k a) = aeval A (monomial k a * X) := by rw [mul_comm]
        rwa [map_mul, map_mul, aeval_X] at this
      rw [hcomm, show (aeval A (monomial k a) * A).map C = (aeval A (monomial k a)).map C * A.map C from Matrix.map_mul,
        Matrix.add_mul, add_assoc, ← Matrix.mul_add, ← hX, Matrix.mul_smul, Matrix.mul_one, Matrix.smul_mul]

theorem aeval_zero_of_mul {p : K[X]} {B : Matrix (Fin n) (Fin n) K[X]} (e : p • (1 : Matrix (Fin n) (Fin n) K[X]) = B * A.charmatrix) : aeval A p = 0 := by
  have h1 := congrArg matPolyEquiv e
  rw [matPolyEquiv_smul_one, map_mul, matPolyEquiv_charmatrix] at h1
  have h2 := congrArg (fun q => eval A q) h1
  simp only [eval_mul_X_sub_C] at h2
  rw [← h2, eval_map_algebraMap]

theorem minpoly_of_smith {U D V : Matrix (Fin n) (Fin n) K[X]} (e : D = U * (A.map C - Matrix.diagonal fun _ => X) * V)
    (hU : IsUnit U.det) (hV : IsUnit V.det) (hd : ∀ i j, i ≠ j → D i j = 0) (l : Fin n) (hm : (D l l).Monic) (hl : ∀ i, D i i ∣ D l l) :
    D l l = minpoly K A := by
  have eP : A.map C - (Matrix.diagonal fun _ => X) = -A.charmatrix := by
    rw [charmatrix, neg_sub]; rfl
  rw [eP] at e
  have eD : D = Matrix.diagonal fun i => D i i := by
    ext1 i j
    by_cases hij : i = j
    · subst hij; simp
    · rw [Matrix.diagonal_apply_ne _ hij, hd i j hij]
  refine minpoly.unique' _ _ hm ?_ ?_
  · choose q hq using hl
    have h1 : Matrix.diagonal q * D = (D l l) • (1 : Matrix (Fin n) (Fin n) K[X]) := by
      conv_lhs => rw [eD, Matrix.diagonal_mul_diagonal]
      ext1 i j
      by_cases hij : i = j
      · subst hij
        rw [Matrix.diagonal_apply_eq, Matrix.smul_apply, Matrix.one_apply_eq, smul_eq_mul, mul_one, mul_comm, ← hq]
      · rw [Matrix.diagonal_apply_ne _ hij, Matrix.smul_apply, Matrix.one_apply_ne hij, smul_zero]
    refine aeval_zero_of_mul A (B := -(V * (Matrix.diagonal q * U))) ?_
    rw [← smith_back e hV h1, Matrix.mul_neg, Matrix.neg_mul]
  · intro q hq
    by_contra hcon
    rw [not_or, not_not] at hcon
    obtain ⟨hq0, h0⟩ := hcon
    obtain ⟨B, hB⟩ := exists_div_charmatrix A q
    rw [h0, Matrix.map_zero _ (by simp), add_zero] at hB
    obtain ⟨B', hB'⟩ := smith_forth e hU hV (B := -B) (by rw [hB, Matrix.neg_mul, Matrix.mul_neg, neg_neg])
    have h5 := congrFun (congrFun hB' l) l
    rw [Matrix.smul_apply, Matrix.one_apply_eq, smul_eq_mul, mul_one, eD, Matrix.mul_diagonal] at h5
    have h6 : D l l ∣ q := ⟨_, by rw [h5, mul_comm]⟩
    exact absurd (degree_le_of_dvd h6 hq0) (not_le.2 hq)

end Math

section Code
variable {α K : Type} [Field K] {S : DomainOps α} {v : α → K} (h : S.Models v)
include h

theorem DomainOps.Models.presentation {n : Nat} {m : Mat α} {A : Matrix (Fin n) (Fin n) K} (hm : m.Denotes v A) :
    ∃ p, S.presentation m = some p ∧ p.Denotes (polyVal v) (A.map C - Matrix.diagonal fun _ => X) := by
  have hP := h.toRing.poly
  obtain ⟨d, e1, h1⟩ := hP.toSemi.matDiag ((List.range m.rows).map fun _ => S.polyVar)
  have h1' : d.Denotes (polyVal v) (Matrix.diagonal fun _ : Fin n => (X : K[X])) := by
    have hl : ((List.range m.rows).map fun _ => S.polyVar).length = n := by simp [hm.rows]
    have key : ∀ (k : Nat) (l : List (List α)) (hk : l.length = k) (hX : ∀ x ∈ l, polyVal v x = X),
        d.Denotes (polyVal v) (Matrix.diagonal fun i : Fin l.length => polyVal v l[i]) →
        d.Denotes (polyVal v) (Matrix.diagonal fun _ : Fin k => (X : K[X])) := by
      rintro k l rfl hX hd
      have : (fun i : Fin l.length => polyVal v l[i]) = fun _ => X := by
        funext i
        exact hX _ (List.getElem_mem _)
      rwa [this] at hd
    refine key n _ hl ?_ h1
    intro x hx
    simp only [List.mem_map] at hx
    obtain ⟨-, -, rfl⟩ := hx
    exact h.toRing.toSemi.polyVar
  obtain ⟨d', e2, h2⟩ := hP.matNeg h1'
  have h3 : (m.applyMap polyConst).Denotes (polyVal v) (A.map C) := hm.applyMap _ _ fun x => polyVal_const v x
  obtain ⟨s, e3, h4⟩ := hP.toSemi.matAdd h3 h2
  refine ⟨s, ?_, by rw [sub_eq_add_neg]; exact h4⟩
  unfold DomainOps.presentation
  simp only [e1, e2, e3, Option.bind_eq_bind, Option.bind_some, unwrapMat]

theorem DomainOps.Models.polyFav_monic {r : K[X]} (hr : r ≠ 0) (hf : S.polyBezout.toFavOps.IsFav (polyVal v) r) : r.Monic := by
  obtain ⟨a, rfl⟩ := h.toRing.toSemi.poly.surj r
  obtain ⟨l, u, c, w, e1, e2, e3, e4, e5, e6⟩ := h.fieldFav.polyFactorFavAssoc_ne a hr
  have hw := hf a _ w rfl e5
  have hl0 : S.isZero l = false := (h.toRing.toSemi.isZero_false l).2 (by rw [e1]; exact leadingCoeff_ne_zero.2 hr)
  have : S.fieldFav.factorFavAssoc l = some (l, S.one) := by simp [DomainOps.fieldFav, hl0]
  rw [this] at e2
  cases e2
  rw [← hw]
  have h7 := congrArg leadingCoeff e6
  rw [leadingCoeff_mul, leadingCoeff_C, e1] at h7
  exact (mul_left_cancel₀ (leadingCoeff_ne_zero.2 hr) (by rw [mul_one]; exact h7.symm))

/-- what the Smith algorithm returns for the matrix `A - x` -/
theorem DomainOps.Models.smithPresentation {n : Nat} {p : Mat (List α)} {A : Matrix (Fin n) (Fin n) K}
    (hp : p.Denotes (polyVal v) (A.map C - Matrix.diagonal fun _ => X)) :
    (∀ res, S.polyBezout.smith p = some res → res.k = n ∧ ∃ D : Matrix (Fin n) (Fin n) K[X], res.s.Denotes (polyVal v) D ∧
      ∏ i, D i i = A.charpoly ∧ ∀ l : Fin n, (l : Nat) + 1 = n → D l l = minpoly K A) ∧
    (n ≤ 2 → ∃ res, S.polyBezout.smith p = some res) := by
  have hB : S.polyBezout.Models (polyVal v) := h.polyEuc.bezout
  have hdet : (A.map C - Matrix.diagonal fun _ => X).det ≠ 0 := by
    rw [(det_presentation A).2]
    exact mul_ne_zero (det_presentation A).1.ne_zero A.charpoly_monic.ne_zero
  obtain ⟨h1, h2⟩ := hB.smith hp (fun y hy => Matrix.eq_zero_of_vecMul_eq_zero hdet hy) le_rfl
  refine ⟨?_, h2⟩
  intro res e
  obtain ⟨hk, U, D, V, -, hD, -, e1, hU, hV, d1, d2, d3⟩ := h1 res e
  have hd : ∀ i j, i ≠ j → D i j = 0 := fun i j hij => d1 i j (fun e => hij (Fin.ext e))
  have hm : ∀ i, (D i i).Monic := fun i => h.polyFav_monic (d2 i i rfl).1 (d2 i i rfl).2
  exact ⟨hk, D, hD, charpoly_of_smith A e1 hU hV hd hm,
    fun l hl => minpoly_of_smith A e1 hU hV hd l (hm l) fun i => d3 i i l l rfl hl rfl⟩

theorem foldlM_diag_prod {n : Nat} {m : Mat (List α)} {D : Matrix (Fin n) (Fin n) K[X]} (hm : m.Denotes (polyVal v) D) :
    ∀ (k : Nat), k ≤ n → ∀ p0 : List α, ∃ p, (List.range k).foldlM (fun p i => (m.get i i).map fun x => S.toRingOps.poly.mul p x) p0 = some p ∧
      polyVal v p = polyVal v p0 * ∏ i : Fin n, if (i : Nat) < k then D i i else 1 := by
  intro k
  induction k with
  | zero => intro _ p0; exact ⟨p0, rfl, by simp⟩
  | succ k ih =>
    intro hk p0
    obtain ⟨p, e1, e2⟩ := ih (by omega) p0
    obtain ⟨x, ex, hx⟩ := hm.get ⟨k, by omega⟩ ⟨k, by omega⟩
    refine ⟨S.toRingOps.poly.mul p x, ?_, ?_⟩
    · rw [List.range_succ, List.foldlM_append, e1]
      simp only [List.foldlM_cons, List.foldlM_nil, Option.bind_eq_bind, Option.bind_some]
      rw [show m.get k k = some x from ex]
      rfl
    · rw [show polyVal v (S.toRingOps.poly.mul p x) = polyVal v p * polyVal v x from h.toRing.toSemi.polyMul p x, e2, hx, mul_assoc]
      congr 1
      rw [mul_comm, ← Finset.mul_prod_erase _ (fun i : Fin n => if (i : Nat) < k + 1 then D i i else 1) (Finset.mem_univ ⟨k, by omega⟩),
        ← Finset.mul_prod_erase _ (fun i : Fin n => if (i : Nat) < k then D i i else 1) (Finset.mem_univ ⟨k, by omega⟩)]
      rw [if_neg (by simp), if_pos (by simp), one_mul]
      congr 1
      refine Finset.prod_congr rfl fun i hi => ?_
      have : (i : Nat) ≠ k := fun e => (Finset.mem_erase.1 hi).1 (Fin.ext e)
      by_cases hik : (i : Nat) < k
      · rw [if_pos hik, if_pos (by omega)]
      · rw [if_neg hik, if_neg (by omega)]

theorem DomainOps.Models.characteristicPolynomial {n : Nat} {m : Mat α} {A : Matrix (Fin n) (Fin n) K} (hm : m.Denotes v A) (hn : 0 < n) :
    (∀ r, S.characteristicPolynomial m = some r → ∃ p, r = .ok p ∧ polyVal v p = A.charpoly) ∧
    (n ≤ 2 → ∃ r, S.characteristicPolynomial m = some r) := by
  obtain ⟨p, e1, hp⟩ := h.presentation hm
  obtain ⟨h1, h2⟩ := h.smithPresentation hp
  unfold DomainOps.characteristicPolynomial DomainOps.presentationMatrix
  rw [if_neg (by rw [hm.rows, hm.cols]; simp), e1]
  simp only [Option.map_some, Option.bind_some, passNotSquare]
  have key : ∀ res, S.polyBezout.smith p = some res → ∃ p', S.charPolyOf res = some p' ∧ polyVal v p' = A.charpoly := by
    intro res e
    obtain ⟨hk, D, hD, hc, -⟩ := h1 res e
    obtain ⟨p', e2, e3⟩ := foldlM_diag_prod h hD n le_rfl S.toRingOps.poly.one
    refine ⟨p', ?_, ?_⟩
    · unfold DomainOps.charPolyOf
      rw [hk]
      simp only [hn, decide_true, assertThat, if_true, Option.bind_eq_bind, Option.bind_some]
      exact e2
    · rw [e3, h.toRing.poly.toSemi.one, one_mul, ← hc]
      exact Finset.prod_congr rfl fun i _ => if_pos i.2
  constructor
  · intro r e
    simp only [Option.map_eq_some_iff, Option.bind_eq_some_iff] at e
    obtain ⟨p', ⟨res, e2, e3⟩, rfl⟩ := e
    obtain ⟨p2, e4, e5⟩ := key res e2
    rw [e4] at e3
    cases e3
    exact ⟨_, rfl, e5⟩
  · intro h3
    obtain ⟨res, e⟩ := h2 h3
    obtain ⟨p2, e4, e5⟩ := key res e
    exact ⟨.ok p2, by rw [e, Option.bind_some, e4]; rfl⟩

theorem DomainOps.Models.minimalPolynomial {n : Nat} {m : Mat α} {A : Matrix (Fin n) (Fin n) K} (hm : m.Denotes v A) (hn : 0 < n) :
    (∀ r, S.minimalPolynomial m = some r → ∃ p, r = .ok p ∧ polyVal v p = minpoly K A) ∧
    (n ≤ 2 → ∃ r, S.minimalPolynomial m = some r) := by
  obtain ⟨p, e1, hp⟩ := h.presentation hm
  obtain ⟨h1, h2⟩ := h.smithPresentation hp
  unfold DomainOps.minimalPolynomial DomainOps.presentationMatrix
  rw [if_neg (by rw [hm.rows, hm.cols]; simp), e1]
  simp only [Option.map_some, Option.bind_some, passNotSquare]
  have key : ∀ res, S.polyBezout.smith p = some res → ∃ p', minPolyOf res = some p' ∧ polyVal v p' = minpoly K A := by
    intro res e
    obtain ⟨hk, D, hD, -, hc⟩ := h1 res e
    obtain ⟨x, ex, hx⟩ := hD.get ⟨n - 1, by omega⟩ ⟨n - 1, by omega⟩
    refine ⟨x, ?_, ?_⟩
    · unfold minPolyOf
      rw [hk]
      simp only [hn, decide_true, assertThat, if_true, Option.bind_eq_bind, Option.bind_some]
      exact ex
    · rw [hx]
      exact hc _ (by simp; omega)
  constructor
  · intro r e
    simp only [Option.map_eq_some_iff, Option.bind_eq_some_iff] at e
    obtain ⟨p', ⟨res, e2, e3⟩, rfl⟩ := e
    obtain ⟨p2, e4, e5⟩ := key res e2
    rw [e4] at e3
    cases e3
    exact ⟨_, rfl, e5⟩
  · intro h3
    obtain ⟨res, e⟩ := h2 h3
    obtain ⟨p2, e4, e5⟩ := key res e
    exact ⟨.ok p2, by rw [e, Option.bind_some, e4]; rfl⟩

/-- an empty matrix: the code asserts `k > 0` and panics -/
theorem DomainOps.Models.charMinPoly_empty {m : Mat α} {A : Matrix (Fin 0) (Fin 0) K} (hm : m.Denotes v A) :
    S.characteristicPolynomial m = none ∧ S.minimalPolynomial m = none := by
  obtain ⟨p, e1, hp⟩ := h.presentation hm
  obtain ⟨h1, h2⟩ := h.smithPresentation hp
  obtain ⟨res, e⟩ := h2 (by omega)
  obtain ⟨hk, -⟩ := h1 res e
  unfold DomainOps.characteristicPolynomial DomainOps.minimalPolynomial DomainOps.presentationMatrix
  rw [if_neg (by rw [hm.rows, hm.cols]; simp), e1]
  simp only [Option.map_some, Option.bind_some, passNotSquare, e]
  simp [DomainOps.charPolyOf, minPolyOf, hk, assertThat]

end Code

theorem charMinPoly_notSquare {α : Type} (S : DomainOps α) (m : Mat α) (hne : m.rows ≠ m.cols) :
    S.characteristicPolynomial m = some (.error .notSquare) ∧ S.minimalPolynomial m = some (.error .notSquare) := by
  unfold DomainOps.characteristicPolynomial DomainOps.minimalPolynomial DomainOps.presentationMatrix
  rw [if_pos hne]
  exact ⟨rfl, rfl⟩

end Verif.Rings
