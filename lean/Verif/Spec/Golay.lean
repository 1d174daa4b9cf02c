import Verif.Model.Golay
import Verif.Spec.Matrix
import Mathlib.Data.Finset.SymmDiff
import Mathlib.Data.ZMod.Basic
import Mathlib.InformationTheory.Hamming
import Mathlib.LinearAlgebra.FiniteDimensional.Basic
import Mathlib.LinearAlgebra.Dimension.Finrank

/-!
# Subsets of 24 points, binary codes of length 24
-/

namespace Verif.Golay

/-- All stored masks are below `2 ^ 24`: "the last 8 bits must be zero". -/
def Vector24.Valid (v : Vector24) : Prop := v.points < 2 ^ 24

/-- The set of points of a mask. -/
def Vector24.set (v : Vector24) : Finset (Fin 24) := Finset.univ.filter fun i => v.points.testBit i

/-- The indicator vector of a set of points, over the field with two elements. -/
def indicator (s : Finset (Fin 24)) : Fin 24 → ZMod 2 := fun i => if i ∈ s then 1 else 0

/-- An extended binary Golay code: a linear code of length 24 and dimension 12 over the field with two elements whose non-zero words have
at least 8 non-zero coordinates. -/
structure IsGolay (C : Submodule (ZMod 2) (Fin 24 → ZMod 2)) : Prop where
  dim : Module.finrank (ZMod 2) C = 12
  weight : ∀ c ∈ C, c ≠ 0 → 8 ≤ hammingNorm c

/-- Six disjoint sets of four points, any two of which form a codeword. -/
structure IsSextet (C : Submodule (ZMod 2) (Fin 24 → ZMod 2)) (T : Fin 6 → Finset (Fin 24)) : Prop where
  four : ∀ i, (T i).card = 4
  disjoint : ∀ i j, i ≠ j → Disjoint (T i) (T j)
  codeword : ∀ i j, i ≠ j → indicator (T i ∪ T j) ∈ C

/-- The element of the field with two elements stored as `0` or `1`. -/
def bit (x : Fin 2) : ZMod 2 := (x.val : ZMod 2)

/-- The code spanned by the rows of a matrix. -/
def rowCode {k : Nat} (A : Matrix (Fin k) (Fin 24) (ZMod 2)) : Submodule (ZMod 2) (Fin 24 → ZMod 2) :=
  Submodule.span (ZMod 2) (Set.range A.row)

/-- `g` is an object that the constructor returned for a matrix with row span `C`. -/
def Code.Of (g : Code) (C : Submodule (ZMod 2) (Fin 24 → ZMod 2)) : Prop :=
  ∃ (m : Verif.Rings.Mat (Fin 2)) (A : Matrix (Fin 12) (Fin 24) (ZMod 2)), m.Denotes bit A ∧ fromRowBasisMatrix m = some (.ok g) ∧ C = rowCode A

/-- The matrix written with the digits `0` and `1`. -/
def digits (rows : List String) : Matrix (Fin 12) (Fin 24) (ZMod 2) :=
  fun i j => if (rows[(i : Nat)]?.bind fun r => r.toList[(j : Nat)]?) = some '1' then 1 else 0

end Verif.Golay
