import Mathlib.Analysis.Real.Sqrt
import Mathlib.RingTheory.PrincipalIdealDomain
import Verif.Proofs.SmithPoly
import Verif.Proofs.SmithRun
import Verif.Proofs.GramSchmidt
import Verif.Props.Matrix

/-! # C101–C105: Smith normal form, characteristic and minimal polynomials, Gram–Schmidt and LQ/QR decompositions -/

namespace Verif.Rings

open Polynomial

/-- an integer matrix stored row by row -/
def intMat (r c : Nat) (l : List Int) : Mat Int := ⟨r, c, false, false, false, l⟩

/-- a rational matrix stored row by row -/
def ratMat (r c : Nat) (l : List ℚ) : Mat ℚ := ⟨r, c, false, false, false, l⟩

/-- The matrix with the entries of the list, row by row. -/
def listMatrix {R : Type} [Zero R] (r c : Nat) (l : List R) : Matrix (Fin r) (Fin c) R := Matrix.of fun i j => l.getD (i * c + j) 0

theorem storedMat_denotes {R : Type} [Zero R] (r c : Nat) (l : List R) (hl : l.length = r * c) :
    Mat.Denotes (id : R → R) ⟨r, c, false, false, false, l⟩ (listMatrix r c l) := by
  refine ⟨rfl, rfl, hl, ?_⟩
  intro i j
  have hlt : (i : Nat) * c + j < l.length := by
    rw [hl]
    calc (i : Nat) * c + j < i * c + c := by omega
      _ = (i + 1) * c := by ring
      _ ≤ r * c := Nat.mul_le_mul_right _ i.2
  refine ⟨l[(i : Nat) * c + j], ?_, ?_⟩
  · unfold Mat.at
    have hr : (⟨r, c, false, false, false, l⟩ : Mat R).rows = r := rfl
    have hc : (⟨r, c, false, false, false, l⟩ : Mat R).cols = c := rfl
    rw [hr, hc, if_neg (by have := i.2; omega), if_neg (by have := j.2; omega)]
    have hidx : (⟨r, c, false, false, false, l⟩ : Mat R).rcToIdx i j = j + i * c := by
      simp [Mat.rcToIdx, flipIdx]
    simp only [hidx]
    rw [show (j : Nat) + i * c = i * c + j by ring, List.getElem?_eq_getElem hlt]
    rfl
  · simp [listMatrix, List.getElem?_eq_getElem hlt]

/-! ## C101: Smith normal form -/

/-- C101, the part that holds: for a matrix with linearly independent rows over a Bézout domain in which chains of divisors end, when
`smith_algorithm` returns, then `s = u m v` with invertible `u`, `v`; `s` is diagonal, its diagonal entries are non-zero favourite
associates, `k` is their number, and all of them divide the last one. What is missing: it need not return, the diagonal entries need not
divide each other in turn, and without independent rows even `s = u m v` fails (see the theorems below). -/
theorem C101_smith_partial {α R : Type} [CommRing R] [WfDvdMonoid R] {S : BezoutOps α} {v : α → R} (h : S.Models v) {r c : Nat} {m : Mat α}
    {A : Matrix (Fin r) (Fin c) R} (hm : m.Denotes v A) (hA : ∀ y, Matrix.vecMul y A = 0 → y = 0) (hrc : r ≤ c) (res : SmithResult α)
    (e : S.smith m = some res) :
    res.k = r ∧ ∃ U D V, res.u.Denotes v U ∧ res.s.Denotes v D ∧ res.v.Denotes v V ∧ D = U * A * V ∧ IsUnit U.det ∧ IsUnit V.det ∧
      (∀ (i : Fin r) (j : Fin c), (i : Nat) ≠ j → D i j = 0) ∧
      (∀ (i : Fin r) (j : Fin c), (i : Nat) = j → D i j ≠ 0 ∧ S.IsFav v (D i j)) ∧
      ∀ (i : Fin r) (j : Fin c) (a : Fin r) (b : Fin c), (i : Nat) = j → (a : Nat) + 1 = r → (b : Nat) = a → D i j ∣ D a b :=
  (h.smith hm hA hrc).1 res e

/-- C101, the part that holds: for one or two linearly independent rows `smith_algorithm` returns a Smith normal form whose diagonal
entries are favourite associates, with `k` the number of rows. -/
theorem C101_smith_two_rows_partial {α R : Type} [CommRing R] [WfDvdMonoid R] {S : BezoutOps α} {v : α → R} (h : S.Models v) {r c : Nat}
    {m : Mat α} {A : Matrix (Fin r) (Fin c) R} (hm : m.Denotes v A) (hA : ∀ y, Matrix.vecMul y A = 0 → y = 0) (hrc : r ≤ c) (hr : r ≤ 2) :
    ∃ res, S.smith m = some res ∧ res.k = r ∧ ∃ U D V, res.u.Denotes v U ∧ res.s.Denotes v D ∧ res.v.Denotes v V ∧ IsSmithForm A U D V ∧
      ∀ (i : Fin r) (j : Fin c), (i : Nat) = j → D i j ≠ 0 ∧ S.IsFav v (D i j) := by
  obtain ⟨h1, h2⟩ := h.smith hm hA hrc
  obtain ⟨res, e⟩ := h2 hr
  obtain ⟨hk, U, D, V, hU, hD, hV, e1, dU, dV, d1, d2, d3⟩ := h1 res e
  refine ⟨res, e, hk, U, D, V, hU, hD, hV, ⟨e1, dU, dV, d1, ?_⟩, d2⟩
  intro i j a b hij hab hia
  by_cases ha : (a : Nat) + 1 = r
  · exact d3 i j a b hij ha hab.symm
  · have : i = a := by
      apply Fin.ext
      have : (i : Nat) ≤ a := hia
      have := a.2
      omega
    subst this
    have : j = b := Fin.ext (by omega)
    subst this
    exact dvd_rfl

/-- two independent rows -/
theorem exMat_indep : ∀ y, Matrix.vecMul y !![(2 : Int), 4; 1, 3] = 0 → y = 0 := by
  intro y hy
  refine Matrix.eq_zero_of_vecMul_eq_zero (M := !![(2 : Int), 4; 1, 3]) ?_ hy
  rw [Matrix.det_fin_two_of]
  norm_num

example := C101_smith_two_rows_partial intOps_models.bezout exMat_denotes exMat_indep le_rfl le_rfl
example : intOps.bezout.smith (intMat 2 3 [2, 4, 4, -6, 6, 12]) =
    some ⟨intMat 2 2 [4, 1, 3, 1], intMat 2 3 [2, 0, 0, 0, 6, 0], intMat 3 3 [1, -3, 2, 0, -1, -4, 0, 1, 3], 2⟩ := by
  rw [intOps_models.bezoutRun]
  exact BezoutOps.smithRun_eq _ 20 _ _ (by decide +kernel)

/-- C101 is false: `smith_algorithm` panics on the integer matrix `(0, 1)ᵀ` (it asks for the swap of column 0 with itself). -/
theorem C101_smith_wrong_panics :
    ∃ (m : Mat Int) (A : Matrix (Fin 2) (Fin 1) Int), m.Denotes (id : Int → Int) A ∧ intOps.bezout.smith m = none := by
  refine ⟨intMat 2 1 [0, 1], _, storedMat_denotes 2 1 [0, 1] rfl, ?_⟩
  rw [intOps_models.bezoutRun]
  exact BezoutOps.smithRun_eq _ 20 _ _ (by decide +kernel)

/-- C101 is false: for the integer matrix `[[0, 0], [0, 1]]` the returned `s` is not `u m v`. -/
theorem C101_smith_wrong_product :
    ∃ (m : Mat Int) (A : Matrix (Fin 2) (Fin 2) Int) (res : SmithResult Int) (U D V : Matrix (Fin 2) (Fin 2) Int),
      m.Denotes (id : Int → Int) A ∧ intOps.bezout.smith m = some res ∧ res.u.Denotes (id : Int → Int) U ∧
      res.s.Denotes (id : Int → Int) D ∧ res.v.Denotes (id : Int → Int) V ∧ D ≠ U * A * V := by
  refine ⟨intMat 2 2 [0, 0, 0, 1], _, ⟨intMat 2 2 [1, 1, 0, 1], intMat 2 2 [1, 0, 0, 0], intMat 2 2 [1, 0, 0, 1], 1⟩, _, _, _,
    storedMat_denotes 2 2 [0, 0, 0, 1] rfl, ?_, storedMat_denotes 2 2 [1, 1, 0, 1] rfl, storedMat_denotes 2 2 [1, 0, 0, 0] rfl,
    storedMat_denotes 2 2 [1, 0, 0, 1] rfl, by decide +kernel⟩
  rw [intOps_models.bezoutRun]
  exact BezoutOps.smithRun_eq _ 20 _ _ (by decide +kernel)

/-- C101 is false: for an invertible-over-ℚ integer matrix with three rows the diagonal entries `2, 1, 2` that are returned do not divide
each other in turn. -/
theorem C101_smith_wrong_form :
    ∃ (m : Mat Int) (A : Matrix (Fin 3) (Fin 3) Int) (res : SmithResult Int) (D : Matrix (Fin 3) (Fin 3) Int),
      m.Denotes (id : Int → Int) A ∧ A.det ≠ 0 ∧ intOps.bezout.smith m = some res ∧ res.s.Denotes (id : Int → Int) D ∧ ¬ D 0 0 ∣ D 1 1 := by
  refine ⟨intMat 3 3 [2, -2, 6, 0, -1, 2, 2, 1, -2], _, ⟨intMat 3 3 [0, 1, 1, -1, 1, 0, -1, 0, 0], intMat 3 3 [2, 0, 0, 0, 1, 0, 0, 0, 2],
    intMat 3 3 [1, 0, 0, -2, -3, 4, -1, -1, 1], 3⟩, _, storedMat_denotes 3 3 _ rfl, ?_, ?_, storedMat_denotes 3 3 _ rfl, by decide +kernel⟩
  · rw [Matrix.det_fin_three]
    decide +kernel
  · rw [intOps_models.bezoutRun]
    exact BezoutOps.smithRun_eq _ 20 _ _ (by decide +kernel)

/-- C101 is false: `smith_algorithm` panics on an invertible-over-ℚ integer matrix with three rows. -/
theorem C101_smith_wrong_panics_three :
    ∃ (m : Mat Int) (A : Matrix (Fin 3) (Fin 3) Int), m.Denotes (id : Int → Int) A ∧ A.det ≠ 0 ∧ intOps.bezout.smith m = none := by
  refine ⟨intMat 3 3 [-2, 0, 2, 4, -1, -2, 4, 3, 4], _, storedMat_denotes 3 3 _ rfl, ?_, ?_⟩
  · rw [Matrix.det_fin_three]
    decide +kernel
  · rw [intOps_models.bezoutRun]
    exact BezoutOps.smithRun_eq _ 20 _ _ (by decide +kernel)

/-! ## C102: characteristic polynomials -/

/-- C102, the part that holds: over a field, whatever `characteristic_polynomial` returns for a non-empty square matrix is its
characteristic polynomial, and it does return for one or two rows. What is missing: it panics on some matrices with three rows and on the
empty matrix. -/
theorem C102_char_poly_partial {α K : Type} [Field K] {S : DomainOps α} {v : α → K} (h : S.Models v) {n : Nat} {m : Mat α}
    {A : Matrix (Fin n) (Fin n) K} (hm : m.Denotes v A) (hn : 0 < n) :
    (∀ r, S.characteristicPolynomial m = some r → ∃ p, r = .ok p ∧ polyVal v p = A.charpoly) ∧
    (n ≤ 2 → ∃ r, S.characteristicPolynomial m = some r) :=
  h.characteristicPolynomial hm hn

/-- C102: `characteristic_polynomial` of a matrix that is not square is a `NotSquare` error. -/
theorem C102_char_poly_shape {α : Type} (S : DomainOps α) (m : Mat α) (hne : m.rows ≠ m.cols) :
    S.characteristicPolynomial m = some (.error .notSquare) :=
  (charMinPoly_notSquare S m hne).1

/-- C102 is false: `characteristic_polynomial` panics on the empty matrix. -/
theorem C102_char_poly_wrong_empty {α K : Type} [Field K] {S : DomainOps α} {v : α → K} (h : S.Models v) {m : Mat α}
    {A : Matrix (Fin 0) (Fin 0) K} (hm : m.Denotes v A) : S.characteristicPolynomial m = none :=
  (h.charMinPoly_empty hm).1

/-- the matrix on which the characteristic and minimal polynomials panic -/
def charBad : Mat ℚ := ratMat 3 3 [0, 0, 0, 0, 0, -1, 0, 0, 1]

theorem charBad_none : (ratOps.presentation charBad).bind ratOps.polyBezout.smith = none := by
  have e : ∃ p, ratOps.presentation charBad = some p ∧ ratOps.polyEuc.bezoutRun.smithRun 20 p = some none := by
    have : (ratOps.presentation charBad).map (ratOps.polyEuc.bezoutRun.smithRun 20) = some (some none) := by decide +kernel
    rw [Option.map_eq_some_iff] at this
    exact this
  obtain ⟨p, e1, e2⟩ := e
  rw [e1, Option.bind_some]
  show ratOps.polyEuc.bezout.smith p = none
  rw [ratOps_models.polyEuc.bezoutRun]
  exact BezoutOps.smithRun_eq _ _ _ _ e2

/-- C102 is false: `characteristic_polynomial` panics on the rational matrix `[[0,0,0],[0,0,-1],[0,0,1]]`. -/
theorem C102_char_poly_wrong_panics :
    ∃ (m : Mat ℚ) (A : Matrix (Fin 3) (Fin 3) ℚ), m.Denotes (id : ℚ → ℚ) A ∧ ratOps.characteristicPolynomial m = none := by
  refine ⟨charBad, _, storedMat_denotes 3 3 _ rfl, ?_⟩
  unfold DomainOps.characteristicPolynomial DomainOps.presentationMatrix
  rw [if_neg (by decide)]
  have := charBad_none
  cases e : ratOps.presentation charBad with
  | none => rfl
  | some p =>
    rw [e] at this
    simp only [Option.bind_some] at this
    simp [passNotSquare, this]

example := C102_char_poly_partial ratOps_models (storedMat_denotes 2 2 [(1 : ℚ), 2, 3, 4] rfl) (by norm_num)
example := C102_char_poly_shape ratOps (ratMat 2 3 [1, 2, 3, 4, 5, 6]) (by decide)

/-! ## C103: minimal polynomials -/

/-- C103, the part that holds: over a field, whatever `minimal_polynomial` returns for a non-empty square matrix is its minimal
polynomial, and it does return for one or two rows. What is missing: it panics on some matrices with three rows and on the empty
matrix. -/
theorem C103_min_poly_partial {α K : Type} [Field K] {S : DomainOps α} {v : α → K} (h : S.Models v) {n : Nat} {m : Mat α}
    {A : Matrix (Fin n) (Fin n) K} (hm : m.Denotes v A) (hn : 0 < n) :
    (∀ r, S.minimalPolynomial m = some r → ∃ p, r = .ok p ∧ polyVal v p = minpoly K A) ∧
    (n ≤ 2 → ∃ r, S.minimalPolynomial m = some r) :=
  h.minimalPolynomial hm hn

/-- C103: `minimal_polynomial` of a matrix that is not square is a `NotSquare` error. -/
theorem C103_min_poly_shape {α : Type} (S : DomainOps α) (m : Mat α) (hne : m.rows ≠ m.cols) :
    S.minimalPolynomial m = some (.error .notSquare) :=
  (charMinPoly_notSquare S m hne).2

/-- C103 is false: `minimal_polynomial` panics on the empty matrix. -/
theorem C103_min_poly_wrong_empty {α K : Type} [Field K] {S : DomainOps α} {v : α → K} (h : S.Models v) {m : Mat α}
    {A : Matrix (Fin 0) (Fin 0) K} (hm : m.Denotes v A) : S.minimalPolynomial m = none :=
  (h.charMinPoly_empty hm).2

/-- C103 is false: `minimal_polynomial` panics on the rational matrix `[[0,0,0],[0,0,-1],[0,0,1]]`. -/
theorem C103_min_poly_wrong_panics :
    ∃ (m : Mat ℚ) (A : Matrix (Fin 3) (Fin 3) ℚ), m.Denotes (id : ℚ → ℚ) A ∧ ratOps.minimalPolynomial m = none := by
  refine ⟨charBad, _, storedMat_denotes 3 3 _ rfl, ?_⟩
  unfold DomainOps.minimalPolynomial DomainOps.presentationMatrix
  rw [if_neg (by decide)]
  have := charBad_none
  cases e : ratOps.presentation charBad with
  | none => rfl
  | some p =>
    rw [e] at this
    simp only [Option.bind_some] at this
    simp [passNotSquare, this]

example := C103_min_poly_partial ratOps_models (storedMat_denotes 2 2 [(2 : ℚ), 0, 0, 2] rfl) (by norm_num)

/-! ## C104: Gram–Schmidt -/

/-- C104: over a field with a conjugation, `gram_schmidt_row_orthogonalization_algorithm` returns `(l, q)` with `q = l m`, where `l` is
lower triangular with ones on the diagonal and the rows of `q` are pairwise orthogonal; this includes that its debug assertions hold. -/
theorem C104_gram_schmidt_row {α K : Type} [Field K] {S : DomainOps α} {v : α → K} (h : S.Models v) {conj : α → α} {σ : K →+* K}
    (hc : ∀ x, v (conj x) = σ (v x)) (hσ : ∀ x, σ (σ x) = x) {r c : Nat} {m : Mat α} {A : Matrix (Fin r) (Fin c) K} (hm : m.Denotes v A)
    (lt q : Mat α) (e : S.gramSchmidtRow conj m = some (lt, q)) :
    ∃ L Q, lt.Denotes v L ∧ q.Denotes v Q ∧ Q = L * A ∧ LowerUnitriangular L ∧ RowOrthogonal σ Q := by
  rcases h.gramSchmidtRow hc hσ hm with ⟨lt', q', L, Q, e', h1, h2, h3, h4, h5, -⟩ | ⟨e', -⟩
  · rw [e] at e'
    cases e'
    exact ⟨L, Q, h1, h2, h3, h4, h5⟩
  · rw [e] at e'; cases e'

/-- C104: when no non-zero vector is orthogonal to itself, the algorithm panics exactly on the matrices with a linear relation between the
rows other than the last one. -/
theorem C104_gram_schmidt_row_panics {α K : Type} [Field K] {S : DomainOps α} {v : α → K} (h : S.Models v) {conj : α → α} {σ : K →+* K}
    (hc : ∀ x, v (conj x) = σ (v x)) (hσ : ∀ x, σ (σ x) = x) {r c : Nat} {m : Mat α} {A : Matrix (Fin r) (Fin c) K} (hm : m.Denotes v A)
    (haniso : ∀ x : Fin c → K, herm σ x x = 0 → x = 0) : S.gramSchmidtRow conj m = none ↔ InitRowsDependent A := by
  rcases h.gramSchmidtRow hc hσ hm with ⟨lt', q', L, Q, e', h1, h2, h3, h4, h5, h6⟩ | ⟨e', L, hL, l, hl, h0⟩
  · rw [e']
    simp only [reduceCtorEq, false_iff]
    rw [h3] at h5 h6
    exact not_initRowsDependent h4 h5 h6
  · simp only [e', true_iff]
    exact initRowsDependent_of_zero haniso hL l hl h0

/-- C104: the column version returns `(q, t)` with `q = m t`, where `t` is upper triangular with ones on the diagonal and the columns of
`q` are pairwise orthogonal. -/
theorem C104_gram_schmidt_col {α K : Type} [Field K] {S : DomainOps α} {v : α → K} (h : S.Models v) {conj : α → α} {σ : K →+* K}
    (hc : ∀ x, v (conj x) = σ (v x)) (hσ : ∀ x, σ (σ x) = x) {r c : Nat} {m : Mat α} {A : Matrix (Fin r) (Fin c) K} (hm : m.Denotes v A)
    (q t : Mat α) (e : S.gramSchmidtCol conj m = some (q, t)) :
    ∃ Q T, q.Denotes v Q ∧ t.Denotes v T ∧ Q = A * T ∧ LowerUnitriangular T.transpose ∧ RowOrthogonal σ Q.transpose := by
  unfold DomainOps.gramSchmidtCol at e
  rw [Option.map_eq_some_iff] at e
  obtain ⟨⟨lt, q'⟩, e1, e2⟩ := e
  cases e2
  obtain ⟨L, Q, h1, h2, h3, h4, h5⟩ := C104_gram_schmidt_row h hc hσ hm.transposed lt q' e1
  refine ⟨_, _, h2.transposed, h1.transposed, ?_, by rwa [Matrix.transpose_transpose], by rwa [Matrix.transpose_transpose]⟩
  rw [h3, Matrix.transpose_mul, Matrix.transpose_transpose]

/-- C104: when no non-zero vector is orthogonal to itself, the column version panics exactly when there is a linear relation between the
columns other than the last one. -/
theorem C104_gram_schmidt_col_panics {α K : Type} [Field K] {S : DomainOps α} {v : α → K} (h : S.Models v) {conj : α → α} {σ : K →+* K}
    (hc : ∀ x, v (conj x) = σ (v x)) (hσ : ∀ x, σ (σ x) = x) {r c : Nat} {m : Mat α} {A : Matrix (Fin r) (Fin c) K} (hm : m.Denotes v A)
    (haniso : ∀ x : Fin r → K, herm σ x x = 0 → x = 0) : S.gramSchmidtCol conj m = none ↔ InitRowsDependent A.transpose := by
  rw [← C104_gram_schmidt_row_panics h hc hσ hm.transposed haniso]
  unfold DomainOps.gramSchmidtCol
  simp

/-- over the rationals no non-zero vector is orthogonal to itself -/
theorem rat_aniso (c : Nat) (x : Fin c → ℚ) (e : herm (RingHom.id ℚ) x x = 0) : x = 0 := by
  unfold herm at e
  funext k
  have := (Finset.sum_eq_zero_iff_of_nonneg (fun k _ => by simpa using mul_self_nonneg (x k))).1 e k (Finset.mem_univ k)
  simpa using this

example : ratOps.gramSchmidtRow id (ratMat 2 2 [1, 2, 3, 4]) = some (ratMat 2 2 [1, 0, -11/5, 1], ratMat 2 2 [1, 2, 4/5, -2/5]) := by
  decide +kernel
example := (C104_gram_schmidt_row_panics ratOps_models (conj := id) (σ := RingHom.id ℚ) (fun _ => rfl) (fun _ => rfl)
  (storedMat_denotes 2 2 [(0 : ℚ), 0, 1, 2] rfl) (rat_aniso 2)).2 ⟨![1, 0], by intro e; simpa using congrFun e 0,
    fun k hk => by fin_cases k <;> simp_all, by ext j; fin_cases j <;> simp [Matrix.vecMul, dotProduct, Fin.sum_univ_two, listMatrix]⟩

/-! ## C105: LQ and QR decompositions -/

/-- C105: when no non-zero vector is orthogonal to itself and square roots of all `⟨x, x⟩` are available (and equal to their conjugates),
`lq_decomposition_algorithm` returns for every matrix with linearly independent rows, and returns `(l, q)` with `q = l m`, where `l` is
lower triangular with non-zero diagonal and the rows of `q` are orthonormal. -/
theorem C105_lq {α K : Type} [Field K] {S : DomainOps α} {v : α → K} (h : S.Models v) {conj : α → α} {σ : K →+* K}
    (hc : ∀ x, v (conj x) = σ (v x)) (hσ : ∀ x, σ (σ x) = x) {sqrt : α → Option α} {r c : Nat} {m : Mat α} {A : Matrix (Fin r) (Fin c) K}
    (hm : m.Denotes v A) (haniso : ∀ x : Fin c → K, herm σ x x = 0 → x = 0)
    (hsqrt : ∀ a, (∃ x : Fin c → K, v a = herm σ x x) → ∃ s, sqrt a = some s ∧ v s ^ 2 = v a ∧ σ (v s) = v s)
    (hA : ∀ y, Matrix.vecMul y A = 0 → y = 0) :
    ∃ lt q L Q, S.lqDecomposition conj sqrt m = some (lt, q) ∧ lt.Denotes v L ∧ q.Denotes v Q ∧ Q = L * A ∧ (∀ k l, k < l → L k l = 0) ∧
      (∀ k, L k k ≠ 0) ∧ Q * (Q.map σ).transpose = 1 :=
  (h.lqDecomposition hc hσ hm haniso hsqrt).1 hA

/-- C105: on a matrix with linearly dependent rows `lq_decomposition_algorithm` panics. -/
theorem C105_lq_panics {α K : Type} [Field K] {S : DomainOps α} {v : α → K} (h : S.Models v) {conj : α → α} {σ : K →+* K}
    (hc : ∀ x, v (conj x) = σ (v x)) (hσ : ∀ x, σ (σ x) = x) {sqrt : α → Option α} {r c : Nat} {m : Mat α} {A : Matrix (Fin r) (Fin c) K}
    (hm : m.Denotes v A) (haniso : ∀ x : Fin c → K, herm σ x x = 0 → x = 0)
    (hsqrt : ∀ a, (∃ x : Fin c → K, v a = herm σ x x) → ∃ s, sqrt a = some s ∧ v s ^ 2 = v a ∧ σ (v s) = v s)
    (hA : ∃ y, y ≠ 0 ∧ Matrix.vecMul y A = 0) : S.lqDecomposition conj sqrt m = none :=
  (h.lqDecomposition hc hσ hm haniso hsqrt).2 hA

/-- C105: `qr_decomposition_algorithm` returns for every matrix with linearly independent columns, and returns `(q, t)` with `q = m t`,
where `t` is upper triangular with non-zero diagonal and the columns of `q` are orthonormal. -/
theorem C105_qr {α K : Type} [Field K] {S : DomainOps α} {v : α → K} (h : S.Models v) {conj : α → α} {σ : K →+* K}
    (hc : ∀ x, v (conj x) = σ (v x)) (hσ : ∀ x, σ (σ x) = x) {sqrt : α → Option α} {r c : Nat} {m : Mat α} {A : Matrix (Fin r) (Fin c) K}
    (hm : m.Denotes v A) (haniso : ∀ x : Fin r → K, herm σ x x = 0 → x = 0)
    (hsqrt : ∀ a, (∃ x : Fin r → K, v a = herm σ x x) → ∃ s, sqrt a = some s ∧ v s ^ 2 = v a ∧ σ (v s) = v s)
    (hA : ∀ y, Matrix.mulVec A y = 0 → y = 0) :
    ∃ q t Q T, S.qrDecomposition conj sqrt m = some (q, t) ∧ q.Denotes v Q ∧ t.Denotes v T ∧ Q = A * T ∧ (∀ k l, l < k → T k l = 0) ∧
      (∀ k, T k k ≠ 0) ∧ Q.transpose * Q.map σ = 1 := by
  obtain ⟨lt, q, L, Q, e, h1, h2, h3, h4, h5, h6⟩ := C105_lq h hc hσ hm.transposed haniso hsqrt
    (fun y hy => hA y (by rwa [Matrix.vecMul_transpose] at hy))
  refine ⟨q.transposed, lt.transposed, _, _, ?_, h2.transposed, h1.transposed, ?_, fun k l hkl => h4 l k hkl, h5, ?_⟩
  · unfold DomainOps.qrDecomposition
    rw [e]; rfl
  · rw [h3, Matrix.transpose_mul, Matrix.transpose_transpose]
  · rw [Matrix.transpose_transpose]
    exact h6

/-- the real numbers -/
noncomputable def realOps : DomainOps ℝ where
  equal a b := @decide (a = b) (Classical.propDecidable _)
  zero := 0
  one := 1
  add a b := a + b
  mul a b := a * b
  neg a := -a
  div a b := some (@ite _ (b = 0) (Classical.propDecidable _) (.error .divideByZero) (.ok (a / b)))

theorem realOps_models : realOps.Models (id : ℝ → ℝ) where
  equal a b := by simp [realOps]
  zero := rfl
  one := rfl
  add _ _ := rfl
  mul _ _ := rfl
  surj r := ⟨r, rfl⟩
  neg _ := rfl
  domain := inferInstance
  div_zero a b hb := by
    change b = 0 at hb
    simp [realOps, hb]
  div_ok a b hb _ := by
    change b ≠ 0 at hb
    refine ⟨a / b, by simp [realOps, hb], ?_⟩
    simp only [id]
    field_simp
  div_not a b hb hn := by
    change b ≠ 0 at hb
    exact absurd ((IsUnit.mk0 _ hb).dvd) hn

example := C105_lq realOps_models (conj := id) (σ := RingHom.id ℝ) (fun _ => rfl) (fun _ => rfl) (sqrt := fun x => some (Real.sqrt x))
  (storedMat_denotes 2 2 [(1 : ℝ), 2, 3, 4] rfl)
  (fun x e => by
    unfold herm at e
    funext k
    have := (Finset.sum_eq_zero_iff_of_nonneg (fun k _ => by simpa using mul_self_nonneg (x k))).1 e k (Finset.mem_univ k)
    simpa using this)
  (fun a ⟨x, hx⟩ => ⟨Real.sqrt a, rfl, Real.sq_sqrt (by
    change a = _ at hx
    rw [hx]
    exact Finset.sum_nonneg fun k _ => by simpa using mul_self_nonneg (x k)), rfl⟩)
  (fun y hy => by
    refine Matrix.eq_zero_of_vecMul_eq_zero (M := listMatrix 2 2 [(1 : ℝ), 2, 3, 4]) ?_ hy
    rw [Matrix.det_fin_two]
    simp [listMatrix]
    norm_num)

end Verif.Rings
