import Verif.Proofs.LatticeExt
import Verif.Props.Matrix

/-! # C74–C79: kernels, linear systems, linear and affine lattices -/

namespace Verif.Rings

/-! Concrete matrices and lattices used to show that the hypotheses below are met. -/

/-- the row `(2, 4)` -/
def exRow : Mat Int := ⟨1, 2, false, false, false, [2, 4]⟩

theorem exRow_denotes : exRow.Denotes (id : Int → Int) !![2, 4] := by
  refine ⟨rfl, rfl, rfl, ?_⟩
  intro i j
  fin_cases i; fin_cases j <;> exact ⟨_, rfl, rfl⟩

/-- the column `(6, 4)` -/
def exCol : Mat Int := ⟨2, 1, false, false, false, [6, 4]⟩

theorem exCol_denotes : exCol.Denotes (id : Int → Int) !![6; 4] := by
  refine ⟨rfl, rfl, rfl, ?_⟩
  intro i j
  fin_cases i <;> fin_cases j <;> exact ⟨_, rfl, rfl⟩

/-- the one by one matrix `(n)` -/
def exPt (n : Int) : Mat Int := ⟨1, 1, false, false, false, [n]⟩

theorem exPt_denotes (n : Int) : (exPt n).Denotes (id : Int → Int) !![n] := by
  refine ⟨rfl, rfl, rfl, ?_⟩
  intro i j
  fin_cases i; fin_cases j; exact ⟨_, rfl, rfl⟩

/-- the lattice of multiples of `n` in the `1 × 1` matrices -/
def exLat (n : Int) : LinLat Int := ⟨⟨1, 1, false, false, false, [n]⟩, 1, 1⟩

theorem exLat_basis {n : Int} (hn : n ≠ 0) : (exLat n).HasBasis (id : Int → Int) (fun _ : Fin 1 => !![n]) := by
  refine ⟨rfl, rfl, ?_, ?_⟩
  · refine ⟨rfl, rfl, rfl, ?_⟩
    intro i j
    have hi : i = 0 := Fin.fin_one_eq_zero i
    have hj : j = (0 : Fin 1) := Fin.fin_one_eq_zero j
    subst hi hj
    exact ⟨n, rfl, rfl⟩
  · rw [Fintype.linearIndependent_iff]
    intro g hg i
    rw [Fin.fin_one_eq_zero i]
    have := congrFun (congrFun hg 0) 0
    simpa [hn] using this

theorem exLat_denotes {n : Int} (hn : n ≠ 0) : (exLat n).Denotes (id : Int → Int) (Submodule.span Int {!![n]}) :=
  ⟨1, _, exLat_basis hn, by simp⟩

theorem exLat_mem {n x : Int} : (!![x] : Matrix (Fin 1) (Fin 1) Int) ∈ Submodule.span Int {!![n]} ↔ n ∣ x := by
  rw [Submodule.mem_span_singleton]
  constructor
  · rintro ⟨a, ha⟩
    have := congrFun (congrFun ha 0) 0
    exact ⟨a, by simpa [mul_comm] using this.symm⟩
  · rintro ⟨a, rfl⟩
    refine ⟨a, ?_⟩
    ext i j
    rw [Fin.fin_one_eq_zero i, Fin.fin_one_eq_zero j]
    simp [mul_comm]

/-! ## C74: kernels and linear systems -/

/-- C74: `row_kernel(A)` is the lattice of all rows `X` with `X A = 0`. -/
theorem C74_row_kernel {α R : Type} [CommRing R] {S : BezoutOps α} {v : α → R} (h : S.Models v) {r c : Nat} {m : Mat α}
    {A : Matrix (Fin r) (Fin c) R} (hm : m.Denotes v A) :
    ∃ lat N, S.rowKernel m = some lat ∧ lat.Denotes v N ∧ ∀ X : Matrix (Fin 1) (Fin r) R, X ∈ N ↔ X * A = 0 := by
  obtain ⟨lat, k, B, e, hB, hN⟩ := h.rowKernel hm
  exact ⟨lat, _, e, ⟨k, B, hB, rfl⟩, hN⟩

/-- C74: `col_kernel(A)` is the lattice of all columns `X` with `A X = 0`. -/
theorem C74_col_kernel {α R : Type} [CommRing R] {S : BezoutOps α} {v : α → R} (h : S.Models v) {r c : Nat} {m : Mat α}
    {A : Matrix (Fin r) (Fin c) R} (hm : m.Denotes v A) :
    ∃ lat N, S.colKernel m = some lat ∧ lat.Denotes v N ∧ ∀ X : Matrix (Fin c) (Fin 1) R, X ∈ N ↔ A * X = 0 := by
  obtain ⟨lat, k, B, e, hB, hN⟩ := h.colKernel hm
  exact ⟨lat, _, e, ⟨k, B, hB, rfl⟩, hN⟩

/-- C74: `col_solve(A, Y)` returns a solution of `A X = Y` if there is one over the ring, and `None` otherwise. -/
theorem C74_col_solve {α R : Type} [CommRing R] {S : BezoutOps α} {v : α → R} (h : S.Models v) {r c : Nat} {m y : Mat α}
    {A : Matrix (Fin r) (Fin c) R} {Y : Matrix (Fin r) (Fin 1) R} (hm : m.Denotes v A) (hy : y.Denotes v Y) :
    (∃ x X, S.colSolve m y = some (some x) ∧ x.Denotes v X ∧ A * X = Y) ∨
      (S.colSolve m y = some none ∧ ¬ ∃ X : Matrix (Fin c) (Fin 1) R, A * X = Y) := h.colSolve hm hy

/-- C74: `row_solve(A, Y)` returns a solution of `X A = Y` if there is one over the ring, and `None` otherwise. -/
theorem C74_row_solve {α R : Type} [CommRing R] {S : BezoutOps α} {v : α → R} (h : S.Models v) {r c : Nat} {m y : Mat α}
    {A : Matrix (Fin r) (Fin c) R} {Y : Matrix (Fin 1) (Fin c) R} (hm : m.Denotes v A) (hy : y.Denotes v Y) :
    (∃ x X, S.rowSolve m y = some (some x) ∧ x.Denotes v X ∧ X * A = Y) ∨
      (S.rowSolve m y = some none ∧ ¬ ∃ X : Matrix (Fin 1) (Fin r) R, X * A = Y) := h.rowSolve hm hy

/-- C74: a right hand side of the wrong shape panics. -/
theorem C74_col_solve_shape {α R : Type} [CommRing R] {S : BezoutOps α} {v : α → R} {r c r' c' : Nat} {m y : Mat α}
    {A : Matrix (Fin r) (Fin c) R} {Y : Matrix (Fin r') (Fin c') R} (hm : m.Denotes v A) (hy : y.Denotes v Y) (hs : r' ≠ r ∨ c' ≠ 1) :
    S.colSolve m y = none := by
  unfold BezoutOps.colSolve
  rw [hm.rows, hy.rows, hy.cols]
  by_cases h1 : r' = r
  · have h2 : c' ≠ 1 := by tauto
    simp [h1, h2, assertThat]
  · simp [h1, assertThat]

/-- C74: `row_solution_lattice(A, Y)` is the set of all solutions of `X A = Y`. -/
theorem C74_row_solution_lattice {α R : Type} [CommRing R] {S : BezoutOps α} {v : α → R} (h : S.Models v) {r c : Nat} {m y : Mat α}
    {A : Matrix (Fin r) (Fin c) R} {Y : Matrix (Fin 1) (Fin c) R} (hm : m.Denotes v A) (hy : y.Denotes v Y) :
    ∃ lat, S.rowSolutionLattice m y = some lat ∧ lat.Denotes v {X | X * A = Y} := h.rowSolutionLattice hm hy

/-- C74: `col_solution_lattice(A, Y)` is the set of all solutions of `A X = Y`. -/
theorem C74_col_solution_lattice {α R : Type} [CommRing R] {S : BezoutOps α} {v : α → R} (h : S.Models v) {r c : Nat} {m y : Mat α}
    {A : Matrix (Fin r) (Fin c) R} {Y : Matrix (Fin r) (Fin 1) R} (hm : m.Denotes v A) (hy : y.Denotes v Y) :
    ∃ lat, S.colSolutionLattice m y = some lat ∧ lat.Denotes v {X | A * X = Y} := h.colSolutionLattice hm hy

example := C74_row_kernel intOps_models.bezout exTall_denotes
example := C74_col_kernel intOps_models.bezout exTall_denotes
example := C74_row_solution_lattice intOps_models.bezout exMat_denotes exRow_denotes
example := C74_col_solution_lattice intOps_models.bezout exMat_denotes exCol_denotes
/-- a solvable system -/
example : ∃ x, ∃ X : Matrix (Fin 1) (Fin 2) Int, intOps.bezout.rowSolve exMat exRow = some (some x) ∧ x.Denotes (id : Int → Int) X ∧ X * (!![2, 4; 1, 3] : Matrix (Fin 2) (Fin 2) Int) = !![2, 4] := by
  rcases C74_row_solve intOps_models.bezout exMat_denotes exRow_denotes with hs | ⟨-, hn⟩
  · exact hs
  · exact absurd ⟨!![1, 0], by simp⟩ hn
/-- a system that is only solvable over the rationals -/
example : intOps.bezout.colSolve (exPt 2) (exPt 3) = some none := by
  rcases C74_col_solve intOps_models.bezout (exPt_denotes 2) (exPt_denotes 3) with ⟨x, X, -, -, hX⟩ | ⟨e, -⟩
  · have := congrFun (congrFun hX 0) 0
    simp [Matrix.mul_apply] at this
    omega
  · exact e
example := C74_col_solve_shape (S := intOps.bezout) exMat_denotes exRow_denotes (.inl (by decide))

/-! ## C75: linear lattices -/

/-- C75: `from_span(r, c, mats)` is the lattice that the matrices span. -/
theorem C75_from_span {α R : Type} [CommRing R] {S : BezoutOps α} {v : α → R} (h : S.Models v) {mats : List (Mat α)} {k r c : Nat}
    {B : Fin k → Matrix (Fin r) (Fin c) R} (hB : MatsDenote v mats B) :
    ∃ lat, S.latFromSpan r c mats = some lat ∧ lat.Denotes v (Submodule.span R (Set.range B)) := h.latFromSpan hB

/-- C75: `from_basis(r, c, mats)` is the lattice with this basis, and panics if the matrices are linearly dependent. -/
theorem C75_from_basis {α R : Type} [CommRing R] {S : BezoutOps α} {v : α → R} (h : S.Models v) {mats : List (Mat α)} {k r c : Nat}
    {B : Fin k → Matrix (Fin r) (Fin c) R} (hB : MatsDenote v mats B) :
    (LinearIndependent R B → ∃ lat, S.latFromBasis r c mats = some lat ∧ lat.Denotes v (Submodule.span R (Set.range B)) ∧ lat.rank = k) ∧
    (¬ LinearIndependent R B → S.latFromBasis r c mats = none) := by
  refine ⟨fun hi => ?_, h.latFromBasis_not hB⟩
  obtain ⟨lat, e, hl⟩ := h.latFromBasis hB hi
  exact ⟨lat, e, ⟨k, B, hl, rfl⟩, hl.rank⟩

/-- C75: `zero(r, c)` is the lattice with the single element zero. -/
theorem C75_zero {α R : Type} [CommRing R] {S : BezoutOps α} {v : α → R} (h : S.Models v) (r c : Nat) :
    ∃ lat, S.latZero r c = some lat ∧ lat.Denotes v (⊥ : Submodule R (Matrix (Fin r) (Fin c) R)) := by
  obtain ⟨lat, e, hl⟩ := h.latFromBasis (mats := []) (B := (Fin.elim0 : Fin 0 → Matrix (Fin r) (Fin c) R)) ⟨rfl, fun n => n.elim0⟩
    (linearIndependent_empty_type)
  exact ⟨lat, e, 0, _, hl, by simp⟩

/-- C75: `rank` is the rank of the lattice. -/
theorem C75_rank {α R : Type} [CommRing R] [IsDomain R] {v : α → R} {lat : LinLat α} {r c : Nat}
    {N : Submodule R (Matrix (Fin r) (Fin c) R)} (hl : lat.Denotes v N) : lat.rank = Module.finrank R N := by
  obtain ⟨k, B, hB, rfl⟩ := hl
  rw [hB.rank, finrank_span_eq_card hB.indep, Fintype.card_fin]

/-- C75: `basis_matrices` is a basis of the lattice. -/
theorem C75_basis_matrices {α R : Type} [CommRing R] {v : α → R} {lat : LinLat α} {r c : Nat}
    {N : Submodule R (Matrix (Fin r) (Fin c) R)} (hl : lat.Denotes v N) :
    ∃ ms k, ∃ B : Fin k → Matrix (Fin r) (Fin c) R, lat.basisMatrices = some ms ∧ MatsDenote v ms B ∧ LinearIndependent R B ∧
      Submodule.span R (Set.range B) = N := by
  obtain ⟨k, B, hB, rfl⟩ := hl
  obtain ⟨ms, e, hms⟩ := hB.basisMatrices
  exact ⟨ms, k, B, e, hms, hB.indep, rfl⟩

/-- C75: `take_nonzero_point` is a nonzero element of the lattice, or `None` if there is none. -/
theorem C75_take_nonzero_point {α R : Type} [CommRing R] [IsDomain R] {v : α → R} {lat : LinLat α} {r c : Nat}
    {N : Submodule R (Matrix (Fin r) (Fin c) R)} (hl : lat.Denotes v N) :
    (N = ⊥ ∧ lat.takeNonzeroPoint = some none) ∨
      ∃ m A, lat.takeNonzeroPoint = some (some m) ∧ m.Denotes v A ∧ A ∈ N ∧ A ≠ 0 := by
  obtain ⟨k, B, hB, rfl⟩ := hl
  unfold LinLat.takeNonzeroPoint
  rw [hB.rank]
  cases k with
  | zero => exact .inl ⟨by simp, rfl⟩
  | succ k =>
    right
    obtain ⟨m, e, hm⟩ := hB.basisMatrix 0
    refine ⟨m, B 0, ?_, hm, Submodule.subset_span ⟨0, rfl⟩, hB.indep.ne_zero 0⟩
    rw [if_neg (by omega)]
    have e' : lat.basisMatrix 0 = some m := e
    rw [e']
    rfl

/-- C75: `transpose` is the lattice of the transposed matrices. -/
theorem C75_transpose {α R : Type} [CommRing R] {v : α → R} {lat : LinLat α} {r c : Nat}
    {N : Submodule R (Matrix (Fin r) (Fin c) R)} (hl : lat.Denotes v N) :
    ∃ l N', lat.transpose = some l ∧ l.Denotes v N' ∧ ∀ A : Matrix (Fin c) (Fin r) R, A ∈ N' ↔ A.transpose ∈ N := by
  obtain ⟨k, B, hB, rfl⟩ := hl
  obtain ⟨l, e, hl⟩ := hB.transpose
  refine ⟨l, _, e, ⟨k, _, hl, rfl⟩, ?_⟩
  intro A
  rw [mem_span_family, mem_span_family]
  constructor
  · rintro ⟨g, rfl⟩
    exact ⟨g, by rw [Matrix.transpose_sum]; simp⟩
  · rintro ⟨g, hg⟩
    refine ⟨g, ?_⟩
    have := congrArg Matrix.transpose hg
    rw [Matrix.transpose_sum] at this
    simpa using this

/-- C75: `row_span` is the lattice that the rows span. -/
theorem C75_row_span {α R : Type} [CommRing R] {S : BezoutOps α} {v : α → R} (h : S.Models v) {r c : Nat} {m : Mat α}
    {A : Matrix (Fin r) (Fin c) R} (hm : m.Denotes v A) :
    ∃ lat, S.rowSpan m = some lat ∧
      lat.Denotes v (Submodule.span R (Set.range fun (i : Fin r) => (Matrix.of fun _ j => A i j : Matrix (Fin 1) (Fin c) R))) :=
  h.rowSpan hm

/-- C75: `col_span` is the lattice that the columns span. -/
theorem C75_col_span {α R : Type} [CommRing R] {S : BezoutOps α} {v : α → R} (h : S.Models v) {r c : Nat} {m : Mat α}
    {A : Matrix (Fin r) (Fin c) R} (hm : m.Denotes v A) :
    ∃ lat, S.colSpan m = some lat ∧
      lat.Denotes v (Submodule.span R (Set.range fun (j : Fin c) => (Matrix.of fun i _ => A i j : Matrix (Fin r) (Fin 1) R))) :=
  h.colSpan hm

/-- C75: `contains_point` decides membership. -/
theorem C75_contains_point {α R : Type} [CommRing R] {S : BezoutOps α} {v : α → R} (h : S.Models v) {lat : LinLat α} {r c : Nat}
    {N : Submodule R (Matrix (Fin r) (Fin c) R)} (hl : lat.Denotes v N) {m : Mat α} {A : Matrix (Fin r) (Fin c) R} (hm : m.Denotes v A) :
    ∃ b, S.latContains lat m = some b ∧ (b = true ↔ A ∈ N) := h.latContains hl hm

/-- C75: `contains_sublattice` decides inclusion. -/
theorem C75_contains_sublattice {α R : Type} [CommRing R] {S : BezoutOps α} {v : α → R} (h : S.Models v) {a b : LinLat α} {r c : Nat}
    {N N' : Submodule R (Matrix (Fin r) (Fin c) R)} (ha : a.Denotes v N) (hb : b.Denotes v N') :
    ∃ x, S.latContainsSub a b = some x ∧ (x = true ↔ N' ≤ N) := h.latContainsSub ha hb

/-- C75: `equal` decides equality. -/
theorem C75_equal {α R : Type} [CommRing R] {S : BezoutOps α} {v : α → R} (h : S.Models v) {a b : LinLat α} {r c : Nat}
    {N N' : Submodule R (Matrix (Fin r) (Fin c) R)} (ha : a.Denotes v N) (hb : b.Denotes v N') :
    ∃ x, S.latEqual a b = some x ∧ (x = true ↔ N = N') := h.latEqual ha hb

example := C75_from_span intOps_models.bezout (mats := [exRow, exRow]) (B := fun _ : Fin 2 => !![2, 4])
  ⟨rfl, fun n => ⟨exRow, by fin_cases n <;> rfl, exRow_denotes⟩⟩
/-- a dependent list is rejected -/
example : intOps.bezout.latFromBasis 1 2 [exRow, exRow] = none :=
  (C75_from_basis intOps_models.bezout (mats := [exRow, exRow]) (B := fun _ : Fin 2 => !![2, 4])
    ⟨rfl, fun n => ⟨exRow, by fin_cases n <;> rfl, exRow_denotes⟩⟩).2 fun hi => absurd (hi.injective (a₁ := 0) (a₂ := 1) rfl) (by decide)
example := C75_rank (exLat_denotes (n := 6) (by decide))
example := C75_basis_matrices (exLat_denotes (n := 6) (by decide))
example := C75_take_nonzero_point (exLat_denotes (n := 6) (by decide))
example := C75_transpose (exLat_denotes (n := 6) (by decide))
example := C75_row_span intOps_models.bezout exTall_denotes
example := C75_col_span intOps_models.bezout exTall_denotes
example : intOps.bezout.latContains (exLat 6) (exPt 8) = some false := by
  obtain ⟨b, e, hb⟩ := C75_contains_point intOps_models.bezout (exLat_denotes (n := 6) (by decide)) (exPt_denotes 8)
  rw [exLat_mem] at hb
  have : b = false := by simpa using hb
  rw [e, this]
example : intOps.bezout.latContainsSub (exLat 2) (exLat 6) = some true := by
  obtain ⟨b, e, hb⟩ := C75_contains_sublattice intOps_models.bezout (exLat_denotes (n := 2) (by decide)) (exLat_denotes (n := 6) (by decide))
  rw [e, hb.2]
  rw [Submodule.span_singleton_le_iff_mem, exLat_mem]
  decide
example : intOps.bezout.latEqual (exLat 2) (exLat 6) = some false := by
  obtain ⟨b, e, hb⟩ := C75_equal intOps_models.bezout (exLat_denotes (n := 2) (by decide)) (exLat_denotes (n := 6) (by decide))
  cases b with
  | false => exact e
  | true =>
    exfalso
    have := hb.1 rfl
    have h2 : (!![(2 : Int)] : Matrix (Fin 1) (Fin 1) Int) ∈ Submodule.span Int {!![(2 : Int)]} := Submodule.mem_span_singleton_self _
    rw [this, exLat_mem] at h2
    omega

/-! ## C76: sum and intersection of linear lattices -/

/-- C76: `sum` is the smallest lattice that contains all the given ones (the zero lattice for an empty list). -/
theorem C76_sum {α R : Type} [CommRing R] {S : BezoutOps α} {v : α → R} (h : S.Models v) {r c : Nat} {lats : List (LinLat α)}
    {Ns : List (Submodule R (Matrix (Fin r) (Fin c) R))} (hl : List.Forall₂ (fun l N => LinLat.Denotes v l N) lats Ns) :
    ∃ lat, S.latSum r c lats = some lat ∧ lat.Denotes v (⨆ N ∈ Ns, N) := h.latSum hl

/-- C76: `sum_pair`. -/
theorem C76_sum_pair {α R : Type} [CommRing R] {S : BezoutOps α} {v : α → R} (h : S.Models v) {r c : Nat} {a b : LinLat α}
    {N N' : Submodule R (Matrix (Fin r) (Fin c) R)} (ha : a.Denotes v N) (hb : b.Denotes v N') :
    ∃ lat, S.latSumPair r c a b = some lat ∧ lat.Denotes v (N ⊔ N') := h.latSumPair ha hb

/-- C76: `intersect` is the intersection of all the given lattices (all matrices for an empty list). -/
theorem C76_intersect {α R : Type} [CommRing R] {S : BezoutOps α} {v : α → R} (h : S.Models v) {r c : Nat} {lats : List (LinLat α)}
    {Ns : List (Submodule R (Matrix (Fin r) (Fin c) R))} (hl : List.Forall₂ (fun l N => LinLat.Denotes v l N) lats Ns) :
    ∃ lat, S.latIntersect r c lats = some lat ∧ lat.Denotes v (⨅ N ∈ Ns, N) := h.latIntersect hl

/-- C76: `intersect_pair`. -/
theorem C76_intersect_pair {α R : Type} [CommRing R] {S : BezoutOps α} {v : α → R} (h : S.Models v) {r c : Nat} {a b : LinLat α}
    {N N' : Submodule R (Matrix (Fin r) (Fin c) R)} (ha : a.Denotes v N) (hb : b.Denotes v N') :
    ∃ lat, S.latIntersectPair r c a b = some lat ∧ lat.Denotes v (N ⊓ N') := h.latIntersectPair ha hb

example := C76_sum intOps_models.bezout (.cons (exLat_denotes (n := 4) (by decide)) (.cons (exLat_denotes (n := 6) (by decide)) .nil))
example := C76_intersect intOps_models.bezout (.cons (exLat_denotes (n := 4) (by decide)) (.cons (exLat_denotes (n := 6) (by decide)) .nil))
example := C76_sum_pair intOps_models.bezout (exLat_denotes (n := 4) (by decide)) (exLat_denotes (n := 6) (by decide))
example := C76_intersect_pair intOps_models.bezout (exLat_denotes (n := 4) (by decide)) (exLat_denotes (n := 6) (by decide))

/-! ## C77: affine lattices -/

/-- C77: `from_offset_and_linear_lattice` is the translate of the lattice by the offset. -/
theorem C77_from_offset {α R : Type} [CommRing R] {S : BezoutOps α} {v : α → R} (h : S.Models v) {r c : Nat} {offset : Mat α}
    {lin : LinLat α} {X : Matrix (Fin r) (Fin c) R} {N : Submodule R (Matrix (Fin r) (Fin c) R)} (ho : offset.Denotes v X)
    (hl : lin.Denotes v N) : ∃ lat, S.affFrom r c offset lin = some lat ∧ lat.Denotes v {Y | ∃ Z ∈ N, Y = X + Z} := by
  refine ⟨_, h.affFrom ho hl, ?_⟩
  convert AffLat.nonEmpty_denotes ho hl using 1
  ext Y
  constructor
  · rintro ⟨Z, hZ, rfl⟩
    change X + Z - X ∈ N
    rwa [add_sub_cancel_left]
  · intro hY
    exact ⟨Y - X, hY, by abel⟩

/-- C77: `take_point` is an element of the affine lattice, or `None` if it is empty; `rank` is `None` exactly if it is empty. -/
theorem C77_take_point {α R : Type} [CommRing R] {v : α → R} {lat : AffLat α} {r c : Nat} {P : Set (Matrix (Fin r) (Fin c) R)}
    (hl : lat.Denotes v P) : (P = ∅ ∧ lat.takePoint = none ∧ lat.rank = none) ∨
      ∃ m A k, lat.takePoint = some m ∧ m.Denotes v A ∧ A ∈ P ∧ lat.rank = some k := by
  obtain ⟨lr, lc, e⟩ := lat
  obtain ⟨-, -, he⟩ := hl
  cases e with
  | empty => exact .inl ⟨he, rfl, rfl⟩
  | nonEmpty o l =>
    obtain ⟨X, N, ho, hN, rfl⟩ := he
    exact .inr ⟨o, X, l.rank, rfl, ho, by simp, rfl⟩

/-- C77: `contains_point` decides membership. -/
theorem C77_contains_point {α R : Type} [CommRing R] {S : BezoutOps α} {v : α → R} (h : S.Models v) {lat : AffLat α} {r c : Nat}
    {P : Set (Matrix (Fin r) (Fin c) R)} (hl : lat.Denotes v P) {m : Mat α} {A : Matrix (Fin r) (Fin c) R} (hm : m.Denotes v A) :
    ∃ b, S.affContains lat m = some b ∧ (b = true ↔ A ∈ P) := h.affContains hl hm

/-- C77: `sum` is the set of all sums of one element of each summand. -/
theorem C77_sum {α R : Type} [CommRing R] {S : BezoutOps α} {v : α → R} (h : S.Models v) {r c : Nat} {lats : List (AffLat α)}
    {Ps : List (Set (Matrix (Fin r) (Fin c) R))} (hl : List.Forall₂ (fun l P => AffLat.Denotes v l P) lats Ps) :
    ∃ lat, S.affSum r c lats = some lat ∧ lat.Denotes v {Y | ∃ Ys, List.Forall₂ (fun y P => y ∈ P) Ys Ps ∧ Y = Ys.sum} := h.affSum hl

/-- C77: `intersect` is the intersection of all the given sets (all matrices for an empty list). -/
theorem C77_intersect {α R : Type} [CommRing R] {S : BezoutOps α} {v : α → R} (h : S.Models v) {r c : Nat} {lats : List (AffLat α)}
    {Ps : List (Set (Matrix (Fin r) (Fin c) R))} (hl : List.Forall₂ (fun l P => AffLat.Denotes v l P) lats Ps) :
    ∃ lat, S.affIntersect r c lats = some lat ∧ lat.Denotes v {Y | ∀ P ∈ Ps, Y ∈ P} := h.affIntersect hl

/-- C77: `intersect_pair`. -/
theorem C77_intersect_pair {α R : Type} [CommRing R] {S : BezoutOps α} {v : α → R} (h : S.Models v) {r c : Nat} {a b : AffLat α}
    {P Q : Set (Matrix (Fin r) (Fin c) R)} (ha : a.Denotes v P) (hb : b.Denotes v Q) :
    ∃ lat, S.affIntersectPair r c a b = some lat ∧ lat.Denotes v (P ∩ Q) := h.affIntersectPair ha hb

/-- C77: `row_affine_span` is the set of affine combinations of the rows (empty if there is no row). -/
theorem C77_row_affine_span {α R : Type} [CommRing R] {S : BezoutOps α} {v : α → R} (h : S.Models v) {r c : Nat} {m : Mat α}
    {A : Matrix (Fin r) (Fin c) R} (hm : m.Denotes v A) :
    ∃ lat, S.rowAffineSpan m = some lat ∧ lat.Denotes v {Y : Matrix (Fin 1) (Fin c) R | ∃ t : Fin r → R, ∑ i, t i = 1 ∧
      ∑ i, t i • (Matrix.of fun _ j => A i j : Matrix (Fin 1) (Fin c) R) = Y} := h.rowAffineSpan hm

/-- C77: `col_affine_span` is the set of affine combinations of the columns (empty if there is no column). -/
theorem C77_col_affine_span {α R : Type} [CommRing R] {S : BezoutOps α} {v : α → R} (h : S.Models v) {r c : Nat} {m : Mat α}
    {A : Matrix (Fin r) (Fin c) R} (hm : m.Denotes v A) :
    ∃ lat, S.colAffineSpan m = some lat ∧ lat.Denotes v {Y : Matrix (Fin r) (Fin 1) R | ∃ t : Fin c → R, ∑ j, t j = 1 ∧
      ∑ j, t j • (Matrix.of fun i _ => A i j : Matrix (Fin r) (Fin 1) R) = Y} := h.colAffineSpan hm

/-- the residue class `x + nℤ` -/
def exAff (x n : Int) : AffLat Int := ⟨1, 1, .nonEmpty (exPt x) (exLat n)⟩

theorem exAff_denotes (x : Int) {n : Int} (hn : n ≠ 0) :
    (exAff x n).Denotes (id : Int → Int) {Y : Matrix (Fin 1) (Fin 1) Int | n ∣ Y 0 0 - x} := by
  have hset : {Y : Matrix (Fin 1) (Fin 1) Int | n ∣ Y 0 0 - x} = {Y | Y - !![x] ∈ Submodule.span Int {!![n]}} := by
    ext Y
    have : Y - !![x] = !![Y 0 0 - x] := by
      ext i j
      rw [Fin.fin_one_eq_zero i, Fin.fin_one_eq_zero j]
      rfl
    rw [Set.mem_setOf_eq, Set.mem_setOf_eq, this, exLat_mem]
  rw [hset]
  exact AffLat.nonEmpty_denotes (exPt_denotes x) (exLat_denotes hn)

example := C77_from_offset intOps_models.bezout (exPt_denotes 3) (exLat_denotes (n := 4) (by decide))
example := C77_take_point (exAff_denotes 3 (n := 4) (by decide))
example := C77_sum intOps_models.bezout (.cons (exAff_denotes 3 (n := 4) (by decide)) (.cons (exAff_denotes 1 (n := 6) (by decide)) .nil))
/-- the Chinese remainder theorem: `3 + 4ℤ` and `1 + 6ℤ` meet, `3 + 4ℤ` and `2 + 6ℤ` do not -/
example : ∃ lat, intOps.bezout.affIntersectPair 1 1 (exAff 3 4) (exAff 1 6) = some lat ∧ lat.takePoint ≠ none := by
  obtain ⟨lat, e, hl⟩ := C77_intersect_pair intOps_models.bezout (exAff_denotes 3 (n := 4) (by decide)) (exAff_denotes 1 (n := 6) (by decide))
  refine ⟨lat, e, ?_⟩
  rcases C77_take_point hl with ⟨h0, -⟩ | ⟨m, A, k, hm, -⟩
  · have : (!![(7 : Int)] : Matrix (Fin 1) (Fin 1) Int) ∈ (∅ : Set (Matrix (Fin 1) (Fin 1) Int)) := by
      rw [← h0]
      exact ⟨by simp, by simp⟩
    exact this.elim
  · rw [hm]; simp
example : ∃ lat, intOps.bezout.affIntersectPair 1 1 (exAff 3 4) (exAff 2 6) = some lat ∧ lat.takePoint = none := by
  obtain ⟨lat, e, hl⟩ := C77_intersect_pair intOps_models.bezout (exAff_denotes 3 (n := 4) (by decide)) (exAff_denotes 2 (n := 6) (by decide))
  refine ⟨lat, e, ?_⟩
  rcases C77_take_point hl with ⟨-, h0, -⟩ | ⟨m, A, k, -, -, ⟨h1, h2⟩, -⟩
  · exact h0
  · exfalso
    simp only [Set.mem_setOf_eq] at h1 h2
    omega
example := C77_row_affine_span intOps_models.bezout exTall_denotes
example := C77_col_affine_span intOps_models.bezout exTall_denotes

/-! ## C78: inclusion and equality of affine lattices -/

/-- C78: `contains_sublattice(P, Q)` is `true` whenever `Q ⊆ P`; if moreover the stored offset of `Q` is in `P`, it is `true` exactly
when `Q ⊆ P`. (The code tests `offset + b` for the basis elements `b` of `Q`, but not the offset.) -/
theorem C78_contains_sublattice_partial {α R : Type} [CommRing R] {S : BezoutOps α} {v : α → R} (h : S.Models v) {lat other : AffLat α}
    {r c : Nat} {P Q : Set (Matrix (Fin r) (Fin c) R)} (hl : lat.Denotes v P) (ho : other.Denotes v Q) :
    ∃ b, S.affContainsSub lat other = some b ∧ (Q ⊆ P → b = true) ∧
      ((∀ o, other.takePoint = some o → ∃ X, o.Denotes v X ∧ X ∈ P) → b = true → Q ⊆ P) := by
  obtain ⟨r1, c1, e1⟩ := other
  have ho' := ho
  obtain ⟨-, -, he⟩ := ho
  cases e1 with
  | empty =>
    have hQ : Q = ∅ := he
    exact ⟨true, rfl, fun _ => rfl, fun _ _ => by rw [hQ]; exact Set.empty_subset _⟩
  | nonEmpty o l =>
    obtain ⟨X, N, hX, ⟨k, B, hB, rfl⟩, rfl⟩ := he
    by_cases hne : P.Nonempty
    · obtain ⟨b, e, hb⟩ := h.affContainsSub hl hX hB hne r1 c1
      refine ⟨b, e, ?_, ?_⟩
      · intro hsub
        rw [hb]
        intro n
        refine hsub ?_
        rw [Set.mem_setOf_eq, add_sub_cancel_right]
        exact Submodule.subset_span ⟨n, rfl⟩
      · intro hoff hbt
        obtain ⟨X', hX', hmem⟩ := hoff o rfl
        have hXX : X' = X := by
          ext i j
          obtain ⟨x, ex, hx⟩ := hX.entry i j
          obtain ⟨x', ex', hx'⟩ := hX'.entry i j
          rw [ex] at ex'
          have : x = x' := by simpa using ex'
          rw [← hx, ← hx', this]
        subst hXX
        have hall := hb.1 hbt
        obtain ⟨lr, lc, e0⟩ := lat
        obtain ⟨-, -, he0⟩ := hl
        cases e0 with
        | empty =>
          have : P = ∅ := he0
          rw [this] at hne
          exact absurd hne (by simp)
        | nonEmpty o0 l0 =>
          obtain ⟨X0, N0, -, -, rfl⟩ := he0
          intro Y hY
          have hle : Submodule.span R (Set.range B) ≤ N0 := by
            rw [Submodule.span_le]
            rintro _ ⟨n, rfl⟩
            have h1 := hall n
            rw [Set.mem_setOf_eq] at h1 hmem
            have := N0.sub_mem h1 hmem
            rwa [show B n + X' - X0 - (X' - X0) = B n by abel] at this
          have h1 := hle hY
          rw [Set.mem_setOf_eq] at hmem ⊢
          have := N0.add_mem h1 hmem
          rwa [show Y - X' + (X' - X0) = Y - X0 by abel] at this
    · rw [Set.not_nonempty_iff_eq_empty] at hne
      obtain ⟨lr, lc, e0⟩ := lat
      obtain ⟨-, -, he0⟩ := hl
      cases e0 with
      | empty =>
        refine ⟨false, rfl, ?_, fun _ h => absurd h (by simp)⟩
        intro hsub
        have : X ∈ P := hsub (by simp)
        rw [hne] at this
        exact this.elim
      | nonEmpty o0 l0 =>
        obtain ⟨X0, N0, -, -, he0⟩ := he0
        have : X0 ∈ P := by rw [he0]; simp
        rw [hne] at this
        exact this.elim

/-- C78: `equal(P, Q)` is `true` whenever `P = Q`; if each stored offset is in the other set, it is `true` exactly when `P = Q`. -/
theorem C78_equal_partial {α R : Type} [CommRing R] {S : BezoutOps α} {v : α → R} (h : S.Models v) {a b : AffLat α}
    {r c : Nat} {P Q : Set (Matrix (Fin r) (Fin c) R)} (ha : a.Denotes v P) (hb : b.Denotes v Q) :
    ∃ x, S.affEqual a b = some x ∧ (P = Q → x = true) ∧
      ((∀ o, b.takePoint = some o → ∃ X, o.Denotes v X ∧ X ∈ P) → (∀ o, a.takePoint = some o → ∃ X, o.Denotes v X ∧ X ∈ Q) →
        x = true → P = Q) := by
  obtain ⟨x, ex, hx1, hx2⟩ := C78_contains_sublattice_partial h ha hb
  obtain ⟨y, ey, hy1, hy2⟩ := C78_contains_sublattice_partial h hb ha
  obtain ⟨z, ez, hz⟩ := andM_some (a := S.affContainsSub a b) (b := S.affContainsSub b a) (P := x = true) (Q := y = true)
    ⟨x, ex, Iff.rfl⟩ ⟨y, ey, Iff.rfl⟩
  refine ⟨z, ez, ?_, ?_⟩
  · rintro rfl
    exact hz.2 ⟨hx1 subset_rfl, hy1 subset_rfl⟩
  · intro h1 h2 hzt
    obtain ⟨hxt, hyt⟩ := hz.1 hzt
    exact Set.Subset.antisymm (hy2 h2 hyt) (hx2 h1 hxt)

/-- C78: without the condition on the offset the answer can be wrong: over the integers, `1 + 2ℤ` is said to contain `ℤ`, and the
different points `0` and `1` are said to be equal. -/
theorem C78_wrong :
    (∃ (a b : AffLat Int) (P Q : Set (Matrix (Fin 1) (Fin 1) Int)), a.Denotes (id : Int → Int) P ∧ b.Denotes (id : Int → Int) Q ∧
      intOps.bezout.affContainsSub a b = some true ∧ ¬ Q ⊆ P) ∧
    (∃ (a b : AffLat Int) (P Q : Set (Matrix (Fin 1) (Fin 1) Int)), a.Denotes (id : Int → Int) P ∧ b.Denotes (id : Int → Int) Q ∧
      intOps.bezout.affEqual a b = some true ∧ P ≠ Q) := by
  constructor
  · refine ⟨exAff 1 2, exAff 0 1, _, _, exAff_denotes 1 (by decide), exAff_denotes 0 (by decide), ?_, ?_⟩
    · obtain ⟨b, e, hb⟩ := intOps_models.bezout.affContainsSub (exAff_denotes 1 (n := 2) (by decide)) (exPt_denotes 0) (exLat_basis (n := 1) (by decide))
        ⟨!![1], by simp⟩ 1 1
      have hbt : b = true := by
        rw [hb]
        intro n
        simp
      rw [← hbt]
      exact e
    · intro hsub
      have : (!![(0 : Int)] : Matrix (Fin 1) (Fin 1) Int) ∈ {Y : Matrix (Fin 1) (Fin 1) Int | (2 : Int) ∣ Y 0 0 - 1} := hsub (by simp)
      simp only [Set.mem_setOf_eq] at this
      have h2 : (2 : Int) ∣ 0 - 1 := this
      omega
  · let z : LinLat Int := ⟨⟨0, 1, false, false, false, []⟩, 1, 1⟩
    have hz : z.Denotes (id : Int → Int) (⊥ : Submodule Int (Matrix (Fin 1) (Fin 1) Int)) := by
      refine ⟨0, Fin.elim0, ⟨rfl, rfl, ⟨rfl, rfl, rfl, fun i => i.elim0⟩, linearIndependent_empty_type⟩, by simp⟩
    refine ⟨⟨1, 1, .nonEmpty (exPt 0) z⟩, ⟨1, 1, .nonEmpty (exPt 1) z⟩, _, _, AffLat.nonEmpty_denotes (exPt_denotes 0) hz,
      AffLat.nonEmpty_denotes (exPt_denotes 1) hz, rfl, ?_⟩
    intro heq
    have : (!![(0 : Int)] : Matrix (Fin 1) (Fin 1) Int) ∈ {Y : Matrix (Fin 1) (Fin 1) Int | Y - !![1] ∈ (⊥ : Submodule Int _)} := by
      rw [← heq]; simp
    rw [Set.mem_setOf_eq, Submodule.mem_bot] at this
    have := congrFun (congrFun this 0) 0
    simp at this

/-- the condition on the offset is met by `3 + 4ℤ` inside `1 + 2ℤ` -/
example : intOps.bezout.affContainsSub (exAff 1 2) (exAff 3 4) = some true := by
  obtain ⟨b, e, hb, -⟩ := C78_contains_sublattice_partial intOps_models.bezout (exAff_denotes 1 (n := 2) (by decide)) (exAff_denotes 3 (n := 4) (by decide))
  rw [e, hb]
  intro Y hY
  simp only [Set.mem_setOf_eq] at hY ⊢
  omega
example : ∀ o, (exAff 3 4).takePoint = some o → ∃ X : Matrix (Fin 1) (Fin 1) Int, o.Denotes (id : Int → Int) X ∧
    X ∈ {Y : Matrix (Fin 1) (Fin 1) Int | (2 : Int) ∣ Y 0 0 - 1} := by
  intro o ho
  have : exPt 3 = o := Option.some.inj ho
  subst this
  exact ⟨_, exPt_denotes 3, by simp⟩

/-! ## C79: extending a basis, hyperplanes -/

/-- C79: for `a ⊆ b`, `extension_basis(a, b)` never panics and returns `rank(b) - rank(a)` elements of `b` that are linearly
independent together with the basis of `a`. -/
theorem C79_extension_basis_partial {α R : Type} [CommRing R] {S : BezoutOps α} {v : α → R} (h : S.Models v) {r c : Nat} {a b : LinLat α}
    {N N' : Submodule R (Matrix (Fin r) (Fin c) R)} (ha : a.Denotes v N) (hb : b.Denotes v N') (hle : N ≤ N') :
    ∃ ext q, ∃ E : Fin q → Matrix (Fin r) (Fin c) R, S.extensionBasis a b = some ext ∧ MatsDenote v ext E ∧ a.rank + q = b.rank ∧
      (∀ n, E n ∈ N') ∧ LinearIndependent R E ∧ Disjoint N (Submodule.span R (Set.range E)) := by
  obtain ⟨ka, A, hA, rfl⟩ := ha
  obtain ⟨kb, B, hB, rfl⟩ := hb
  obtain ⟨ext, q, E, e, hE, hq, hi, hmem⟩ := h.extensionBasis hA hB hle
  refine ⟨ext, q, E, e, hE, by rw [hA.rank, hB.rank, hq], ?_, ?_, ?_⟩
  · intro n
    obtain ⟨m, hm⟩ := hmem n
    rw [hm]
    exact Submodule.subset_span ⟨m, rfl⟩
  · have := hi.comp (Fin.natAdd ka) (Fin.natAdd_injective _ _)
    have hf : Fin.append A E ∘ Fin.natAdd ka = E := by
      funext n
      exact Fin.append_right A E n
    rwa [hf] at this
  · rw [Submodule.disjoint_def]
    intro x hx hx'
    obtain ⟨g1, rfl⟩ := mem_span_family.1 hx
    obtain ⟨g2, hg2⟩ := mem_span_family.1 hx'
    rw [Fintype.linearIndependent_iff] at hi
    have hz := hi (Fin.append g1 fun n => - g2 n) (by
      rw [Fin.sum_univ_add]
      simp only [Fin.append_left, Fin.append_right, neg_smul, Finset.sum_neg_distrib, hg2]
      exact add_neg_cancel _)
    refine Finset.sum_eq_zero fun n _ => ?_
    have := hz (Fin.castAdd q n)
    rw [Fin.append_left] at this
    rw [this, zero_smul]

/-- C79: over a field, the returned elements extend the basis of `a` to a basis of `b`. -/
theorem C79_extension_basis_field {α K : Type} [Field K] {S : BezoutOps α} {v : α → K} (h : S.Models v) {r c : Nat} {a b : LinLat α}
    {N N' : Submodule K (Matrix (Fin r) (Fin c) K)} (ha : a.Denotes v N) (hb : b.Denotes v N') (hle : N ≤ N') :
    ∃ ext q, ∃ E : Fin q → Matrix (Fin r) (Fin c) K, S.extensionBasis a b = some ext ∧ MatsDenote v ext E ∧ LinearIndependent K E ∧
      IsCompl (N.submoduleOf N') ((Submodule.span K (Set.range E)).submoduleOf N') ∧ N ⊔ Submodule.span K (Set.range E) = N' := by
  obtain ⟨ext, q, E, e, hE, hq, hmem, hi, hd⟩ := C79_extension_basis_partial h ha hb hle
  have hEle : Submodule.span K (Set.range E) ≤ N' := by
    rw [Submodule.span_le]
    rintro _ ⟨n, rfl⟩
    exact hmem n
  have hsup : N ⊔ Submodule.span K (Set.range E) = N' := by
    refine Submodule.eq_of_le_of_finrank_eq (sup_le hle hEle) ?_
    have h1 := Submodule.finrank_sup_add_finrank_inf_eq N (Submodule.span K (Set.range E))
    rw [disjoint_iff.1 hd, finrank_bot, finrank_span_eq_card hi, Fintype.card_fin, ← C75_rank ha, hq, C75_rank hb] at h1
    exact h1
  refine ⟨ext, q, E, e, hE, hi, ⟨?_, ?_⟩, hsup⟩
  · rw [Submodule.disjoint_def] at hd ⊢
    intro x h1 h2
    exact Subtype.ext (hd x h1 h2)
  · rw [codisjoint_iff, eq_top_iff]
    rintro ⟨x, hx⟩ -
    rw [← hsup] at hx
    obtain ⟨y, hy, z, hz, rfl⟩ := Submodule.mem_sup.1 hx
    exact Submodule.mem_sup.2 ⟨⟨y, hle hy⟩, hy, ⟨z, hEle hz⟩, hz, rfl⟩

/-- C79: over the integers the result need not extend the basis of `a` to a basis of `b`: for `2ℤ ⊆ ℤ` nothing is returned. -/
theorem C79_extension_basis_wrong : ∃ (a b : LinLat Int) (N N' : Submodule Int (Matrix (Fin 1) (Fin 1) Int)),
    a.Denotes (id : Int → Int) N ∧ b.Denotes (id : Int → Int) N' ∧ N ≤ N' ∧ intOps.bezout.extensionBasis a b = some [] ∧ N ≠ N' := by
  have ha := exLat_denotes (n := 2) (by decide)
  have hb := exLat_denotes (n := 1) (by decide)
  have hle : Submodule.span Int {(!![(2 : Int)] : Matrix (Fin 1) (Fin 1) Int)} ≤ Submodule.span Int {!![(1 : Int)]} := by
    rw [Submodule.span_singleton_le_iff_mem, exLat_mem]
    decide
  refine ⟨_, _, _, _, ha, hb, hle, ?_, ?_⟩
  · obtain ⟨ext, q, E, e, hE, hq, -⟩ := C79_extension_basis_partial intOps_models.bezout ha hb hle
    have h0 : q = 0 := by
      have h1 : (exLat 2).rank = 1 := rfl
      have h2 : (exLat 1).rank = 1 := rfl
      omega
    have : ext = [] := List.length_eq_zero_iff.1 (by rw [hE.1, h0])
    rw [e, this]
  · intro heq
    have h2 : (!![(1 : Int)] : Matrix (Fin 1) (Fin 1) Int) ∈ Submodule.span Int {!![(1 : Int)]} := Submodule.mem_span_singleton_self _
    rw [← heq, exLat_mem] at h2
    omega

/-- C79: `as_hyperplane_intersection(N)` never panics; it returns `n - rank(N)` lattices of rank `n - 1`, where `n` is the dimension of
the whole space, and their intersection is `N` provided `N` does not have full rank. -/
theorem C79_hyperplanes_partial {α R : Type} [CommRing R] {S : BezoutOps α} {v : α → R} (h : S.Models v) {r c : Nat} {lat : LinLat α}
    {N : Submodule R (Matrix (Fin r) (Fin c) R)} (hl : lat.Denotes v N) :
    ∃ ls, ∃ Hs : List (Submodule R (Matrix (Fin r) (Fin c) R)), S.hyperplanes lat = some ls ∧
      List.Forall₂ (fun l H => LinLat.Denotes v l H) ls Hs ∧ ls.length + lat.rank = r * c ∧ (∀ l ∈ ls, l.rank + 1 = r * c) ∧
      (lat.rank < r * c → (⨅ H ∈ Hs, H) = N) := by
  obtain ⟨k, B, hB, rfl⟩ := hl
  rw [hB.rank]
  exact h.hyperplanes hB

/-- C79: over a field the intersection is always `N`. -/
theorem C79_hyperplanes_field {α K : Type} [Field K] {S : BezoutOps α} {v : α → K} (h : S.Models v) {r c : Nat} {lat : LinLat α}
    {N : Submodule K (Matrix (Fin r) (Fin c) K)} (hl : lat.Denotes v N) :
    ∃ ls, ∃ Hs : List (Submodule K (Matrix (Fin r) (Fin c) K)), S.hyperplanes lat = some ls ∧
      List.Forall₂ (fun l H => LinLat.Denotes v l H) ls Hs ∧ (∀ l ∈ ls, l.rank + 1 = r * c) ∧ (⨅ H ∈ Hs, H) = N := by
  obtain ⟨ls, Hs, e, hH, hlen, hr, hinf⟩ := C79_hyperplanes_partial h hl
  refine ⟨ls, Hs, e, hH, hr, ?_⟩
  by_cases hlt : lat.rank < r * c
  · exact hinf hlt
  · have h0 : Hs = [] := List.length_eq_zero_iff.1 (by rw [← hH.length_eq]; omega)
    have htop : N = ⊤ := by
      refine Submodule.eq_top_of_finrank_eq ?_
      rw [← C75_rank hl, Module.finrank_matrix]
      simp
      omega
    rw [h0, htop]
    simp

/-- C79: for a proper lattice of full rank the list is empty: `2ℤ` is not the intersection of no hyperplanes, which is `ℤ`. -/
theorem C79_hyperplanes_wrong : ∃ (lat : LinLat Int) (N : Submodule Int (Matrix (Fin 1) (Fin 1) Int)),
    lat.Denotes (id : Int → Int) N ∧ intOps.bezout.hyperplanes lat = some [] ∧ N ≠ ⊤ := by
  have ha := exLat_denotes (n := 2) (by decide)
  refine ⟨_, _, ha, ?_, ?_⟩
  · obtain ⟨ls, Hs, e, -, hlen, -⟩ := C79_hyperplanes_partial intOps_models.bezout ha
    have h1 : (exLat 2).rank = 1 := rfl
    have : ls = [] := List.length_eq_zero_iff.1 (by omega)
    rw [e, this]
  · intro heq
    have h2 : (!![(1 : Int)] : Matrix (Fin 1) (Fin 1) Int) ∈ (⊤ : Submodule Int (Matrix (Fin 1) (Fin 1) Int)) := Submodule.mem_top
    rw [← heq, exLat_mem] at h2
    omega

example := C79_extension_basis_partial intOps_models.bezout (exLat_denotes (n := 6) (by decide)) (exLat_denotes (n := 2) (by decide))
  (by rw [Submodule.span_singleton_le_iff_mem, exLat_mem]; decide)

/-- a line in the plane, over the integers: one hyperplane -/
example : ∃ lat l, intOps.bezout.rowSpan exRow = some lat ∧ intOps.bezout.hyperplanes lat = some [l] := by
  obtain ⟨lat, e, hl⟩ := C75_row_span intOps_models.bezout exRow_denotes
  obtain ⟨ls, Hs, e2, -, hlen, -⟩ := C79_hyperplanes_partial intOps_models.bezout hl
  have hr : lat.rank = 1 := by
    rw [C75_rank hl]
    have hi : LinearIndependent Int (fun (i : Fin 1) => (Matrix.of fun _ j => (!![2, 4] : Matrix (Fin 1) (Fin 2) Int) i j : Matrix (Fin 1) (Fin 2) Int)) := by
      rw [Fintype.linearIndependent_iff]
      intro g hg i
      rw [Fin.fin_one_eq_zero i]
      have := congrFun (congrFun hg 0) 0
      simpa using this
    rw [finrank_span_eq_card hi]
    simp
  have : ls.length = 1 := by omega
  obtain ⟨l, rfl⟩ := List.length_eq_one_iff.1 this
  exact ⟨lat, l, e, e2⟩

/-- the rationals: a basis of the plane that extends the empty one -/
example : ∃ a b ext, ratOps.fieldEuc.bezout.latZero 1 2 = some a ∧
    ratOps.fieldEuc.bezout.rowSpan (exMat.applyMap fun z => (z : ℚ)) = some b ∧ ratOps.fieldEuc.bezout.extensionBasis a b = some ext := by
  obtain ⟨a, ea, ha⟩ := C75_zero ratOps_models.fieldEuc.bezout 1 2
  obtain ⟨b, eb, hb⟩ := C75_row_span ratOps_models.fieldEuc.bezout
    (exMat_denotes.applyMap (w := (id : ℚ → ℚ)) (fun z => (z : ℚ)) (fun z => (z : ℚ)) fun _ => rfl)
  obtain ⟨ext, q, E, e, -⟩ := C79_extension_basis_field ratOps_models.fieldEuc.bezout ha hb bot_le
  exact ⟨a, b, ext, ea, eb, e⟩
example (a : LinLat ℚ) (N : Submodule ℚ (Matrix (Fin 1) (Fin 2) ℚ)) (ha : a.Denotes (id : ℚ → ℚ) N) :=
  C79_hyperplanes_field ratOps_models.fieldEuc.bezout ha

end Verif.Rings
