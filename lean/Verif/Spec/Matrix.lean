import Verif.Model.Matrix
import Verif.Spec.Structure
import Mathlib.LinearAlgebra.Matrix.Determinant.Basic
import Mathlib.LinearAlgebra.Matrix.NonsingularInverse

/-!
# What a stored matrix denotes

`m.Denotes v A` says that the stored matrix `m` (with its flags) denotes the Mathlib matrix `A`: it has the right number of rows and
columns, and reading the entry `(i, j)` succeeds and gives a representative of `A i j`.
-/

namespace Verif.Rings

/-- The stored matrix `m` denotes `A`. -/
structure Mat.Denotes {α R : Type} (v : α → R) (m : Mat α) {r c : Nat} (A : Matrix (Fin r) (Fin c) R) : Prop where
  rows : m.rows = r
  cols : m.cols = c
  /-- the length invariant of the stored vector -/
  length : m.elems.length = m.dim1 * m.dim2
  entry : ∀ (i : Fin r) (j : Fin c), ∃ x, m.at i j = some (.ok x) ∧ v x = A i j

/-- The matrix with the given rows. -/
def rowsMatrix {R : Type} {c : Nat} (L : List (Fin c → R)) : Matrix (Fin L.length) (Fin c) R := Matrix.of fun i => L[i]

/-- The matrix `H` is in row echelon form with the given pivot columns: the columns increase strictly, row `k` starts with a non-zero
entry in column `pivs[k]`, and the rows from `pivs.length` on are zero. -/
structure IsRowEchelon {R : Type} [Zero R] {r c : Nat} (H : Matrix (Fin r) (Fin c) R) (pivs : List Nat) : Prop where
  increasing : pivs.Pairwise (· < ·)
  le : pivs.length ≤ r
  lt : ∀ p ∈ pivs, p < c
  pivot : ∀ (i : Fin r) (j : Fin c), pivs[(i : Nat)]? = some (j : Nat) → H i j ≠ 0
  left : ∀ (i : Fin r) (j : Fin c) (p : Nat), pivs[(i : Nat)]? = some p → (j : Nat) < p → H i j = 0
  below : ∀ (i : Fin r) (j : Fin c), pivs.length ≤ (i : Nat) → H i j = 0

/-- A matrix given by its size and its entries. -/
structure Block (R : Type) where
  rows : Nat
  cols : Nat
  entry : Matrix (Fin rows) (Fin cols) R

/-- The entries of the block diagonal matrix with the given blocks: the first block is in the top left corner, the other blocks follow
below and to the right, all other entries are zero. -/
def blockDiagEntry {R : Type} [Zero R] : List (Block R) → Nat → Nat → R
  | [], _, _ => 0
  | b :: rest, i, j =>
    if h : i < b.rows ∧ j < b.cols then b.entry ⟨i, h.1⟩ ⟨j, h.2⟩
    else if b.rows ≤ i ∧ b.cols ≤ j then blockDiagEntry rest (i - b.rows) (j - b.cols)
    else 0

/-- `x` is zero or its Euclidean norm is smaller than that of `b`. -/
def EucOps.Small {α R : Type} [CommRing R] (S : EucOps α) (v : α → R) (x b : R) : Prop :=
  x = 0 ∨ ∀ a a' : α, v a = x → v a' = b → ∃ n m, S.norm a = some n ∧ S.norm a' = some m ∧ n < m

end Verif.Rings
