import Verif.Model.PolyFactor
import Verif.Spec.Polynomial
import Mathlib.RingTheory.Polynomial.Content
import Mathlib.Algebra.Squarefree.Basic

/-!
# Rings with a factoring algorithm
-/

namespace Verif.Rings

open Polynomial

/-- `S` presents the unique factorization domain `R`, and `factor` factors its nonzero elements. -/
structure UfdOps.Models {α R : Type} [CommRing R] (S : UfdOps α) (v : α → R) : Prop extends
    toGcd : S.toGcdOps.Models v where
  factor_zero : ∀ a, v a = 0 → S.factor a = some none
  factor_ne : ∀ a, v a ≠ 0 → ∃ f, S.factor a = some (some f) ∧ f.Valid S.toFavOps v ∧ f.denote v = v a

/-- The function `pgcd` on coefficient lists computes greatest common divisors with primitive polynomials. -/
def IsPrimGcd {α R : Type} [CommRing R] (v : α → R) (pgcd : List α → List α → Option (List α)) : Prop :=
  ∀ a b, (polyVal v a).IsPrimitive → ∃ g, pgcd a b = some g ∧ IsGcdOf {polyVal v a, polyVal v b} (polyVal v g)

/-- `sq` is a factoring algorithm for primitive squarefree polynomials. -/
def FactorsPrimSqfree {α R : Type} [CommRing R] (S : UfdOps α) (v : α → R) (sq : List α → Option (Factored (List α))) : Prop :=
  ∀ a, (polyVal v a).IsPrimitive → Squarefree (polyVal v a) →
    ∃ fa, sq a = some fa ∧ fa.Valid S.toFavOps.poly (polyVal v) ∧ fa.denote (polyVal v) = polyVal v a

/-- `fac` factors the nonzero polynomials up to a unit, and exactly when no square of a nonconstant polynomial divides them. -/
def FactorsUpToUnit {β R : Type} [CommRing R] (B : FavOps β) (w : β → R)
    (fac : List β → Option (Option (Factored (List β)))) : Prop :=
  ∀ p, polyVal w p ≠ 0 → ∃ pf, fac p = some (some pf) ∧ pf.Valid B.poly (polyVal w) ∧
    Associated (pf.denote (polyVal w)) (polyVal w p) ∧
    ((∀ g : R[X], g ^ 2 ∣ polyVal w p → g.natDegree = 0) → pf.denote (polyVal w) = polyVal w p)

/-- `fac` factors the nonzero polynomials exactly. -/
def Factors {β R : Type} [CommRing R] (B : FavOps β) (w : β → R)
    (fac : List β → Option (Option (Factored (List β)))) : Prop :=
  ∀ p, polyVal w p ≠ 0 → ∃ pf, fac p = some (some pf) ∧ pf.Valid B.poly (polyVal w) ∧ pf.denote (polyVal w) = polyVal w p

end Verif.Rings
