import Verif.Spec.NumberField
import Verif.Model.Factored

/-!
# Factoring over number fields: what the answers should mean
-/

namespace Verif.Anf
open Verif.Rings Polynomial

/-- A function factors the non-zero rational polynomials of degree less than `N`: whenever it returns, the result is a factorization, into
irreducible polynomials none of which is a multiple of another, of a non-zero constant times the polynomial. -/
def RatFactorOk (N : Nat) (ratFactor : List ℚ → Option (Option (Factored (List ℚ)))) : Prop :=
  ∀ g r, polyVal (id : ℚ → ℚ) g ≠ 0 → (polyVal (id : ℚ → ℚ) g).natDegree < N → ratFactor g = some r → ∃ F, r = some F ∧
    F.Valid ratOps.fieldFav.poly (polyVal (id : ℚ → ℚ)) ∧ Associated (F.denote (polyVal (id : ℚ → ℚ))) (polyVal (id : ℚ → ℚ) g)

/-- A function returns for the non-zero rational polynomials of degree less than `N`. -/
def RatFactorReturns (N : Nat) (ratFactor : List ℚ → Option (Option (Factored (List ℚ)))) : Prop :=
  ∀ g, polyVal (id : ℚ → ℚ) g ≠ 0 → (polyVal (id : ℚ → ℚ) g).natDegree < N → ∃ r, ratFactor g = some r

/-- A factorization over the number field with modulus `f`: the unit is a unit, and the factors are distinct, monic and irreducible, with
positive exponents. -/
structure FactorsOver (f : List ℚ) (F : Factored (List (List ℚ))) : Prop where
  unit : IsUnit (polyVal (el f) F.unit)
  monic : ∀ g ∈ F.factors, (polyVal (el f) g.1).Monic
  irreducible : ∀ g ∈ F.factors, Irreducible (polyVal (el f) g.1)
  pos : ∀ g ∈ F.factors, 0 < g.2
  distinct : (F.factors.map fun g => polyVal (el f) g.1).Nodup

end Verif.Anf
