import Verif.Model.Eigen
import Verif.Props.Lattice
import Verif.Props.Smith
import Verif.Proofs.Eigen
import Verif.Proofs.AnfFactorMain
import Mathlib.Analysis.Complex.Polynomial.Basic

/-! Properties of eigenvalues and eigenspaces. -/

namespace Verif.Rings
open Matrix Polynomial

section
variable {β α K L : Type} [Field K] [Field L] [Algebra K L] {C : ClosureOps β α} {S : BezoutOps α} {v : β → K} {w : α → L}

/-- C190: `generalized_col_eigenspace(A, x, k)` never panics on a square matrix, and is the space of all columns `X` with `(A - x)^k X = 0`. -/
theorem C190_generalized_col_eigenspace (h : S.Models w) (hi : ∀ b, w (C.inclusion b) = algebraMap K L (v b)) {m : Mat β} {n : Nat}
    {A : Matrix (Fin n) (Fin n) K} (hm : m.Denotes v A) (x : α) (k : Nat) :
    ∃ lat N, C.generalizedColEigenspace S m x k = some lat ∧ lat.Denotes w N ∧
      ∀ X : Matrix (Fin n) (Fin 1) L, X ∈ N ↔ (A.map (algebraMap K L) - Matrix.scalar (Fin n) (w x)) ^ k * X = 0 := by
  have hS := h.toGcd.toDomain.toRing.toSemi
  obtain ⟨i, e1, hi1⟩ := hS.matIdent n
  obtain ⟨s, e2, hs⟩ := hS.matMulScalar hi1 x
  obtain ⟨t, e3, ht⟩ := h.toGcd.toDomain.toRing.matNeg hs
  obtain ⟨d, e4, hd⟩ := hS.matAdd (hm.applyMap (w := w) C.inclusion (algebraMap K L) hi) ht
  obtain ⟨p, e5, hp⟩ := hS.matNatPow hd k
  obtain ⟨lat, N, e6, hl, hN⟩ := C74_col_kernel h hp
  refine ⟨lat, N, ?_, hl, fun X => ?_⟩
  · unfold ClosureOps.generalizedColEigenspace
    rw [hm.rows, hm.cols]
    simp only [assertThat, beq_self_eq_true, if_true, Option.bind_eq_bind, Option.bind_some, e1, e2, e3, e4, e5, unwrapMatErr]
    exact e6
  · rw [hN]
    have : A.map (algebraMap K L) + -(1 : Matrix (Fin n) (Fin n) L).map (fun y => y * w x) =
        A.map (algebraMap K L) - Matrix.scalar (Fin n) (w x) := by
      rw [sub_eq_add_neg]
      congr 2
      ext a b
      by_cases hab : a = b
      · subst hab; simp
      · simp [hab]
    rw [← this]

/-- C190: `generalized_row_eigenspace(A, x, k)` never panics on a square matrix, and is the space of all rows `X` with `X (A - x)^k = 0`. -/
theorem C190_generalized_row_eigenspace (h : S.Models w) (hi : ∀ b, w (C.inclusion b) = algebraMap K L (v b)) {m : Mat β} {n : Nat}
    {A : Matrix (Fin n) (Fin n) K} (hm : m.Denotes v A) (x : α) (k : Nat) :
    ∃ lat N, C.generalizedRowEigenspace S m x k = some lat ∧ lat.Denotes w N ∧
      ∀ X : Matrix (Fin 1) (Fin n) L, X ∈ N ↔ X * (A.map (algebraMap K L) - Matrix.scalar (Fin n) (w x)) ^ k = 0 := by
  obtain ⟨lat, N, e1, hl, hN⟩ := C190_generalized_col_eigenspace (C := C) h hi hm.transposed x k
  obtain ⟨l, N', e2, hl', hN'⟩ := C75_transpose hl
  refine ⟨l, N', ?_, hl', fun X => ?_⟩
  · unfold ClosureOps.generalizedRowEigenspace
    rw [e1, Option.bind_some, e2]
  · rw [hN', hN, ← Matrix.transpose_eq_zero (M := X * _), Matrix.transpose_mul, Matrix.transpose_pow, Matrix.transpose_sub]
    simp [Matrix.transpose_map]

/-- C190: the eigenspaces of a square matrix are the spaces of all columns with `A X = x X`, and of all rows with `X A = x X`. -/
theorem C190_eigenspaces (h : S.Models w) (hi : ∀ b, w (C.inclusion b) = algebraMap K L (v b)) {m : Mat β} {n : Nat}
    {A : Matrix (Fin n) (Fin n) K} (hm : m.Denotes v A) (x : α) :
    (∃ lat N, C.colEigenspace S m x = some lat ∧ lat.Denotes w N ∧
      ∀ X : Matrix (Fin n) (Fin 1) L, X ∈ N ↔ A.map (algebraMap K L) * X = w x • X) ∧
    (∃ lat N, C.rowEigenspace S m x = some lat ∧ lat.Denotes w N ∧
      ∀ X : Matrix (Fin 1) (Fin n) L, X ∈ N ↔ X * A.map (algebraMap K L) = w x • X) := by
  constructor
  · obtain ⟨lat, N, e, hl, hN⟩ := C190_generalized_col_eigenspace (C := C) h hi hm x 1
    refine ⟨lat, N, e, hl, fun X => ?_⟩
    rw [hN, pow_one, Matrix.sub_mul, sub_eq_zero]
    have : (Matrix.scalar (Fin n)) (w x) * X = w x • X := by
      rw [Matrix.scalar_apply, ← Matrix.smul_one_eq_diagonal, Matrix.smul_mul, Matrix.one_mul]
    rw [this]
  · obtain ⟨lat, N, e, hl, hN⟩ := C190_generalized_row_eigenspace (C := C) h hi hm x 1
    refine ⟨lat, N, e, hl, fun X => ?_⟩
    rw [hN, pow_one, Matrix.mul_sub, sub_eq_zero]
    have : X * (Matrix.scalar (Fin n)) (w x) = w x • X := by
      rw [Matrix.scalar_apply, ← Matrix.smul_one_eq_diagonal, Matrix.mul_smul, Matrix.mul_one]
    rw [this]

/-- C190: on a matrix that is not square all of them panic. -/
theorem C190_not_square_panics {m : Mat β} {r c : Nat} (hrc : r ≠ c) {A : Matrix (Fin r) (Fin c) K} (hm : m.Denotes v A) (x : α) (k : Nat) :
    C.generalizedColEigenspace S m x k = none ∧ C.generalizedRowEigenspace S m x k = none := by
  have h1 : (m.rows == m.cols) = false := by rw [hm.rows, hm.cols]; simpa using hrc
  have h2 : (m.transposed.rows == m.transposed.cols) = false := by rw [hm.transposed.rows, hm.transposed.cols]; simpa using hrc.symm
  constructor
  · unfold ClosureOps.generalizedColEigenspace
    rw [h1]
    rfl
  · unfold ClosureOps.generalizedRowEigenspace ClosureOps.generalizedColEigenspace
    rw [h2]
    rfl

end

/-- the rational numbers with the identity as inclusion -/
def exClosure : ClosureOps ℚ ℚ := ⟨ratOps, id, fun _ => none, fun _ => none⟩

example := C190_generalized_col_eigenspace (C := exClosure) (v := (id : ℚ → ℚ)) ratOps_models.fieldEuc.bezout (fun _ => rfl)
  (storedMat_denotes 2 2 [(1 : ℚ), 2, 0, 1] rfl) 1 2
example := C190_generalized_row_eigenspace (C := exClosure) (v := (id : ℚ → ℚ)) ratOps_models.fieldEuc.bezout (fun _ => rfl)
  (storedMat_denotes 2 2 [(1 : ℚ), 2, 0, 1] rfl) 1 2
example := C190_eigenspaces (C := exClosure) (v := (id : ℚ → ℚ)) ratOps_models.fieldEuc.bezout (fun _ => rfl)
  (storedMat_denotes 2 2 [(1 : ℚ), 2, 0, 1] rfl) 1
example := C190_not_square_panics (C := exClosure) (S := ratOps.fieldEuc.bezout) (v := (id : ℚ → ℚ)) (r := 2) (c := 3) (by decide)
  (storedMat_denotes 2 3 [(1 : ℚ), 2, 0, 1, 5, 6] rfl) 1 2

section
variable {β α K L : Type} [Field K] [Field L] [Algebra K L] {C : ClosureOps β α} {v : β → K} {w : α → L}

/-- C191: `all_roots_unique` of a polynomial that is not zero lists every root once and nothing else. -/
theorem C191_roots_unique [CharZero K] (hC : C.Sound v w) {p : List β} (hp : polyVal v p ≠ 0) :
    ∃ l, C.rootsUnique p = some (some l) ∧ (l.map w).Nodup ∧ ∀ x, x ∈ l.map w ↔ aeval x (polyVal v p) = 0 :=
  hC.rootsUnique hp

/-- C191: `all_roots_powers` of a polynomial that is not zero lists every root once, together with its multiplicity, and nothing else. -/
theorem C191_roots_powers [CharZero K] (hC : C.Sound v w) {p : List β} (hp : polyVal v p ≠ 0) :
    ∃ l, C.rootsPowers p = some (some l) ∧ (l.map fun r => w r.1).Nodup ∧ (∀ x, (∃ r ∈ l, w r.1 = x) ↔ aeval x (polyVal v p) = 0) ∧
      ∀ r ∈ l, r.2 = rootMultiplicity (w r.1) ((polyVal v p).map (algebraMap K L)) :=
  hC.rootsPowers hp

/-- C191: `all_roots_powers` of the zero polynomial is `None`. -/
theorem C191_roots_powers_zero (hC : C.Sound v w) {p : List β} (hp : polyVal v p = 0) : C.rootsPowers p = some none := by
  unfold ClosureOps.rootsPowers
  rw [hC.factor_zero p hp]
  rfl

/-- C191 is false: `all_roots_unique` of the zero polynomial panics instead of giving `None` as `all_roots_list` does. -/
theorem C191_roots_unique_zero_wrong (hC : C.Sound v w) {p : List β} (hp : polyVal v p = 0) :
    C.rootsList p = some none ∧ C.rootsUnique p = none := by
  refine ⟨hC.roots_zero p hp, ?_⟩
  unfold ClosureOps.rootsUnique
  rw [hC.factor_zero p hp]
  rfl

/-- C191, for the runs in which the characteristic polynomial does not panic (C102): `eigenvalues_list` lists the eigenvalues with multiplicity,
`eigenvalues_unique` lists every one once, and `eigenvalues_powers` every one once with its multiplicity. -/
theorem C191_eigenvalues_partial [CharZero K] (hC : C.Sound v w) {m : Mat β} {n : Nat} {A : Matrix (Fin n) (Fin n) K} (hm : m.Denotes v A)
    (hn : 0 < n) {p : List β} (hrun : C.charPoly m = some p) :
    (∃ l, C.eigenvaluesList m = some l ∧ ((l.map w : List L) : Multiset L) = (A.charpoly.map (algebraMap K L)).roots) ∧
    (∃ l, C.eigenvaluesUnique m = some l ∧ (l.map w).Nodup ∧ ∀ x, x ∈ l.map w ↔ (A.charpoly.map (algebraMap K L)).IsRoot x) ∧
    ∃ l, C.eigenvaluesPowers m = some l ∧ (l.map fun r => w r.1).Nodup ∧
      (∀ x, (∃ r ∈ l, w r.1 = x) ↔ (A.charpoly.map (algebraMap K L)).IsRoot x) ∧
      ∀ r ∈ l, r.2 = rootMultiplicity (w r.1) (A.charpoly.map (algebraMap K L)) := by
  have hp : polyVal v p = A.charpoly := by
    unfold ClosureOps.charPoly at hrun
    obtain ⟨r, e, hr⟩ := Option.bind_eq_some_iff.1 hrun
    obtain ⟨q, rfl, hq⟩ := (C102_char_poly_partial hC.base hm hn).1 r e
    cases hr
    exact hq
  have h0 : polyVal v p ≠ 0 := by rw [hp]; exact A.charpoly_monic.ne_zero
  have hr : ∀ x : L, aeval x (polyVal v p) = 0 ↔ (A.charpoly.map (algebraMap K L)).IsRoot x := fun x => by
    rw [hp, IsRoot.def, eval_map_algebraMap]
  refine ⟨?_, ?_, ?_⟩
  · obtain ⟨l, e, hl⟩ := hC.roots_ne p h0
    refine ⟨l, ?_, by rw [hl, hp]⟩
    unfold ClosureOps.eigenvaluesList
    simp [hrun, e]
  · obtain ⟨l, e, h1, h2⟩ := hC.rootsUnique h0
    refine ⟨l, ?_, h1, fun x => by rw [h2, hr]⟩
    unfold ClosureOps.eigenvaluesUnique
    simp [hrun, e]
  · obtain ⟨l, e, h1, h2, h3⟩ := hC.rootsPowers h0
    refine ⟨l, ?_, h1, fun x => by rw [h2, hr], fun r hr => by rw [h3 r hr, hp]⟩
    unfold ClosureOps.eigenvaluesPowers
    simp [hrun, e]

/-- C191: up to size `2` the characteristic polynomial, and so the three functions, do not panic. -/
theorem C191_eigenvalues_small_returns [CharZero K] (hC : C.Sound v w) {m : Mat β} {n : Nat} {A : Matrix (Fin n) (Fin n) K} (hm : m.Denotes v A)
    (hn : 0 < n) (hn2 : n ≤ 2) : ∃ p, C.charPoly m = some p := by
  obtain ⟨r, e⟩ := (C102_char_poly_partial hC.base hm hn).2 hn2
  obtain ⟨q, rfl, -⟩ := (C102_char_poly_partial hC.base hm hn).1 r e
  exact ⟨q, by unfold ClosureOps.charPoly; rw [e]; rfl⟩

/-- C191 is false: the eigenvalues of the empty matrix are an empty list, but all three functions panic. -/
theorem C191_eigenvalues_wrong_empty (hC : C.Sound v w) {m : Mat β} {A : Matrix (Fin 0) (Fin 0) K} (hm : m.Denotes v A) :
    C.eigenvaluesList m = none ∧ C.eigenvaluesUnique m = none ∧ C.eigenvaluesPowers m = none := by
  have h : C.charPoly m = none := by
    unfold ClosureOps.charPoly
    rw [C102_char_poly_wrong_empty hC.base hm]
    rfl
  simp [ClosureOps.eigenvaluesList, ClosureOps.eigenvaluesUnique, ClosureOps.eigenvaluesPowers, h]

end

theorem exFactor (a : ℚ[X]) (ha : a ≠ 0) : ∃ F : Factored (List ℚ), F.Valid ratOps.fieldFav.poly (polyVal (id : ℚ → ℚ)) ∧
    Associated (F.denote (polyVal (id : ℚ → ℚ))) a := by
  classical
  have hsurj := ratOps_models.toRing.toSemi.poly.surj
  choose rep hrep using hsurj
  let s := UniqueFactorizationMonoid.normalizedFactors a
  let l := s.toFinset.toList
  have hl : ∀ g ∈ l, g ∈ s := fun g hg => by
    rw [Finset.mem_toList, Multiset.mem_toFinset] at hg
    exact hg
  have hmem : ∀ x ∈ (l.map fun g => (rep g, s.count g)), ∃ g ∈ s, polyVal (id : ℚ → ℚ) x.1 = g ∧ x.2 = s.count g := by
    intro x hx
    obtain ⟨g, hg, rfl⟩ := List.mem_map.1 hx
    exact ⟨g, hl g hg, hrep g, rfl⟩
  have hirr : ∀ g ∈ s, Irreducible g := fun g hg => UniqueFactorizationMonoid.irreducible_of_normalized_factor g hg
  refine ⟨⟨rep 1, l.map fun g => (rep g, s.count g)⟩, ⟨?_, ?_, ?_, ?_, ?_⟩, ?_⟩
  · rw [hrep]; exact isUnit_one
  · intro x hx
    obtain ⟨g, hg, e, -⟩ := hmem x hx
    rw [e]; exact hirr g hg
  · intro x hx
    obtain ⟨g, hg, e, -⟩ := hmem x hx
    rw [e]
    refine Verif.Anf.monic_fav ratOps_models ?_
    have h2 := UniqueFactorizationMonoid.normalize_normalized_factor g hg
    rw [← h2]
    exact Polynomial.monic_normalize (hirr g hg).ne_zero
  · intro x hx
    obtain ⟨g, hg, -, e⟩ := hmem x hx
    rw [e]; exact Multiset.count_pos.2 hg
  · rw [List.map_map]
    have : l.map ((fun p : List ℚ × Nat => polyVal (id : ℚ → ℚ) p.1) ∘ fun g => (rep g, s.count g)) = l := by
      conv_rhs => rw [← List.map_id l]
      exact List.map_congr_left fun g _ => hrep g
    rw [this]
    exact Finset.nodup_toList _
  · have h1 : Factored.denote (polyVal (id : ℚ → ℚ)) ⟨rep 1, l.map fun g => (rep g, s.count g)⟩ = s.prod := by
      unfold Factored.denote
      rw [hrep, one_mul, List.map_map, Finset.prod_multiset_count, ← Finset.prod_map_toList]
      congr 1
      exact List.map_congr_left fun g _ => by
        change polyVal (id : ℚ → ℚ) (rep g) ^ s.count g = _
        rw [hrep]
    rw [h1]
    exact UniqueFactorizationMonoid.prod_normalizedFactors ha

open Classical in
/-- the complex numbers over the rational numbers -/
noncomputable def exComplex : ClosureOps ℚ ℂ where
  base := ratOps
  inclusion := algebraMap ℚ ℂ
  rootsList p := some (if polyVal (id : ℚ → ℚ) p = 0 then none else some ((polyVal (id : ℚ → ℚ) p).map (algebraMap ℚ ℂ)).roots.toList)
  factor p := some (if h : polyVal (id : ℚ → ℚ) p = 0 then none else some (exFactor _ h).choose)

theorem exComplex_sound : exComplex.Sound (id : ℚ → ℚ) (id : ℂ → ℂ) where
  base := ratOps_models
  inclusion _ := rfl
  factor_zero p hp := by simp [exComplex, hp]
  factor_ne p hp := ⟨(exFactor _ hp).choose, by simp [exComplex, hp], (exFactor _ hp).choose_spec⟩
  roots_zero p hp := by simp [exComplex, hp]
  roots_ne p hp := ⟨((polyVal (id : ℚ → ℚ) p).map (algebraMap ℚ ℂ)).roots.toList, by simp [exComplex, hp], by simp⟩

theorem exCubic : polyVal (id : ℚ → ℚ) [0, 0, 1, 1] ≠ 0 := by
  intro h
  have := congrArg (Polynomial.eval 1) h
  simp [polyVal] at this

example := C191_roots_unique exComplex_sound exCubic
example := C191_roots_powers exComplex_sound exCubic
example := C191_roots_powers_zero exComplex_sound (p := []) (by simp [polyVal])
example := C191_roots_unique_zero_wrong exComplex_sound (p := []) (by simp [polyVal])
example := (C191_eigenvalues_small_returns exComplex_sound (storedMat_denotes 2 2 [(1 : ℚ), 2, 0, 1] rfl) (by decide) le_rfl).imp fun _ =>
  C191_eigenvalues_partial exComplex_sound (storedMat_denotes 2 2 [(1 : ℚ), 2, 0, 1] rfl) (by decide)
example := C191_eigenvalues_wrong_empty exComplex_sound (storedMat_denotes 0 0 [] rfl)

end Verif.Rings
