import Verif.Spec.MultiPoly
import Mathlib.Algebra.MvPolynomial.Supported
import Mathlib.RingTheory.MvPolynomial.Symmetric.Defs

/-!
# Symmetric polynomials in some of the variables
-/

namespace Verif.Rings

/-- `P` is a symmetric polynomial in the given variables: no other variable occurs, and every permutation of the variables leaves
`P` as it is. -/
def SymmetricIn {R : Type} [CommSemiring R] (vars : List ℕ) (P : MvPolynomial ℕ R) : Prop :=
  (∀ x ∈ P.vars, x ∈ vars) ∧ ∀ σ : Equiv.Perm ℕ, (∀ x, x ∉ vars → σ x = x) → MvPolynomial.rename σ P = P

/-- The elementary symmetric polynomial of degree `k` in the given variables: the sum of the products of `k` of them. -/
noncomputable def esymIn (R : Type) [CommSemiring R] (k : ℕ) (vars : List ℕ) : MvPolynomial ℕ R :=
  ((vars.map MvPolynomial.X : List (MvPolynomial ℕ R)) : Multiset (MvPolynomial ℕ R)).esymm k

/-- The substitution `e[i] ↦ e_{i + 1}(vars)`. -/
noncomputable def esymSubst (R : Type) [CommSemiring R] (e vars : List ℕ) (x : ℕ) : MvPolynomial ℕ R :=
  if x ∈ e then esymIn R (e.idxOf x + 1) vars else 0

end Verif.Rings
