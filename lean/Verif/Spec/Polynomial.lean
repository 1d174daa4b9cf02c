import Verif.Model.Polynomial
import Verif.Spec.Structure
import Mathlib.Algebra.Algebra.Defs
import Mathlib.Algebra.Polynomial.Basic
import Mathlib.Algebra.Polynomial.Degree.Definitions

/-!
# What a vector of coefficients denotes
-/

namespace Verif.Rings

open Polynomial

/-- The polynomial with the given coefficients, the constant one first. -/
noncomputable def polyVal {α R : Type} [Semiring R] (v : α → R) : List α → R[X]
  | [] => 0
  | c :: p => C (v c) + X * polyVal v p

/-- The documented invariant: if non-empty, the last item is not zero. -/
def PolyReduced {α R : Type} [Semiring R] (v : α → R) (p : List α) : Prop :=
  ∀ c, p.getLast? = some c → v c ≠ 0

/-- `from_base_ring`, `numerator` and `denominator` present `K` as the field of fractions of `R`: a fraction is its numerator
over its nonzero denominator, and an element of `R` has denominator one. -/
structure FofModels {α β K R : Type} [Field K] [CommRing R] [Algebra R K] (fromBase : β → α) (num den : α → β)
    (v : α → K) (w : β → R) : Prop where
  fromBase : ∀ b, v (fromBase b) = algebraMap R K (w b)
  den_ne : ∀ x, w (den x) ≠ 0
  fraction : ∀ x, v x * algebraMap R K (w (den x)) = algebraMap R K (w (num x))
  base : ∀ x r, v x = algebraMap R K r → w (den x) = 1

end Verif.Rings
