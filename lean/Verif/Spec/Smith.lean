import Mathlib.LinearAlgebra.Matrix.NonsingularInverse
import Verif.Spec.Matrix

/-! Specifications for Smith normal form and for Gram–Schmidt. -/

namespace Verif.Rings

/-- `D` is a Smith normal form of `A`, reached with the invertible matrices `U` and `V`: `D = U A V` is diagonal and every diagonal
entry divides the next ones. -/
structure IsSmithForm {R : Type} [CommRing R] {r c : Nat} (A : Matrix (Fin r) (Fin c) R) (U : Matrix (Fin r) (Fin r) R)
    (D : Matrix (Fin r) (Fin c) R) (V : Matrix (Fin c) (Fin c) R) : Prop where
  eq : D = U * A * V
  left : IsUnit U.det
  right : IsUnit V.det
  diag : ∀ (i : Fin r) (j : Fin c), (i : Nat) ≠ j → D i j = 0
  dvd : ∀ (i : Fin r) (j : Fin c) (a : Fin r) (b : Fin c), (i : Nat) = j → (a : Nat) = b → i ≤ a → D i j ∣ D a b

/-- The inner product of `x` and the conjugate of `y`. -/
def herm {K : Type} [CommRing K] {c : Nat} (σ : K →+* K) (x y : Fin c → K) : K := ∑ k, x k * σ (y k)

/-- Distinct rows of `Q` are orthogonal. -/
def RowOrthogonal {K : Type} [CommRing K] {r c : Nat} (σ : K →+* K) (Q : Matrix (Fin r) (Fin c) K) : Prop :=
  ∀ k l, k ≠ l → herm σ (Q k) (Q l) = 0

/-- `L` is lower triangular with ones on the diagonal. -/
def LowerUnitriangular {K : Type} [CommRing K] {r : Nat} (L : Matrix (Fin r) (Fin r) K) : Prop :=
  (∀ k l, k < l → L k l = 0) ∧ ∀ k, L k k = 1

/-- There is a non-trivial linear relation between the rows of `A` other than the last one. -/
def InitRowsDependent {K : Type} [CommRing K] {r c : Nat} (A : Matrix (Fin r) (Fin c) K) : Prop :=
  ∃ y : Fin r → K, y ≠ 0 ∧ (∀ k : Fin r, (k : Nat) + 1 = r → y k = 0) ∧ Matrix.vecMul y A = 0

end Verif.Rings
