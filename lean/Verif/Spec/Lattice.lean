import Verif.Model.Lattice
import Verif.Spec.Matrix
import Mathlib.LinearAlgebra.LinearIndependent.Defs
import Mathlib.LinearAlgebra.Span.Basic

/-!
# What a stored lattice denotes

A stored linear lattice denotes a submodule of the module of `r × c` matrices: the rows of its stored matrix, read as matrices in
row-major order, are a basis of it. A stored affine lattice denotes a set of matrices: nothing, or a translate of a submodule.
-/

namespace Verif.Rings

/-- The stored lattice has the (linearly independent) basis `B`: row `n` of the stored matrix is `B n`, read row by row. -/
structure LinLat.HasBasis {α R : Type} [CommRing R] (v : α → R) (lat : LinLat α) {k r c : Nat} (B : Fin k → Matrix (Fin r) (Fin c) R) :
    Prop where
  rows : lat.rows = r
  cols : lat.cols = c
  denotes : lat.metamatrix.Denotes v (Matrix.of fun (n : Fin k) (idx : Fin (r * c)) => B n idx.divNat idx.modNat)
  indep : LinearIndependent R B

/-- The stored lattice denotes the submodule `N`. -/
def LinLat.Denotes {α R : Type} [CommRing R] (v : α → R) (lat : LinLat α) {r c : Nat} (N : Submodule R (Matrix (Fin r) (Fin c) R)) : Prop :=
  ∃ (k : Nat) (B : Fin k → Matrix (Fin r) (Fin c) R), lat.HasBasis v B ∧ Submodule.span R (Set.range B) = N

/-- The stored elements of an affine lattice denote the set `P`. -/
def AffElems.Denotes {α R : Type} [CommRing R] (v : α → R) {r c : Nat} (e : AffElems α) (P : Set (Matrix (Fin r) (Fin c) R)) : Prop :=
  match e with
  | .empty => P = ∅
  | .nonEmpty offset linlat => ∃ X N, offset.Denotes v X ∧ linlat.Denotes v N ∧ P = {Y : Matrix (Fin r) (Fin c) R | Y - X ∈ N}

/-- The stored affine lattice denotes the set `P`. -/
structure AffLat.Denotes {α R : Type} [CommRing R] (v : α → R) (lat : AffLat α) {r c : Nat} (P : Set (Matrix (Fin r) (Fin c) R)) : Prop where
  rows : lat.rows = r
  cols : lat.cols = c
  elems : lat.elems.Denotes v P

/-- The list of stored matrices denotes the family `B`. -/
def MatsDenote {α R : Type} (v : α → R) (mats : List (Mat α)) {k r c : Nat} (B : Fin k → Matrix (Fin r) (Fin c) R) : Prop :=
  mats.length = k ∧ ∀ n : Fin k, ∃ m, mats[(n : Nat)]? = some m ∧ m.Denotes v (B n)

end Verif.Rings
