import Verif.Spec.Polynomial
import Verif.Spec.Structure
import Mathlib.RingTheory.AdjoinRoot
import Mathlib.RingTheory.IntegralClosure.IsIntegral.Basic

/-!
# Number fields: what the answers should mean

The number field of a rational polynomial `f` is Mathlib's `AdjoinRoot f`; algebraic integers are `IsIntegral ℤ`.
-/

namespace Verif.Anf
open Verif.Rings Polynomial

/-- The number field `ℚ[x]/(f)`. -/
abbrev NumField (f : List ℚ) : Type := AdjoinRoot (polyVal (id : ℚ → ℚ) f)

/-- The element of the number field represented by a polynomial. -/
noncomputable def el (f a : List ℚ) : NumField f := AdjoinRoot.mk _ (polyVal (id : ℚ → ℚ) a)

/-- The elements represented by a list of `n` polynomials. -/
noncomputable def els (f : List ℚ) (l : List (List ℚ)) (n : Nat) (i : Fin n) : NumField f := el f (l.getD i [])

/-- `l` is an integral basis: it has as many elements as the degree of the field, and an element of the field is an algebraic integer
exactly when it is a combination of the elements of `l` with integer coefficients, and the coefficients are unique. -/
def IsIntegralBasis (f : List ℚ) (l : List (List ℚ)) : Prop :=
  l.length = (polyVal (id : ℚ → ℚ) f).natDegree ∧
  (∀ x : NumField f, IsIntegral ℤ x ↔ ∃ c : Fin l.length → ℤ, x = ∑ i, (c i : ℚ) • els f l l.length i) ∧
  ∀ c d : Fin l.length → ℤ, ∑ i, (c i : ℚ) • els f l l.length i = ∑ i, (d i : ℚ) • els f l l.length i → c = d

end Verif.Anf
