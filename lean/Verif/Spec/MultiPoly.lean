import Verif.Model.MultiPoly
import Verif.Spec.Polynomial
import Mathlib.Algebra.MvPolynomial.CommRing
import Mathlib.Algebra.MvPolynomial.Variables

/-!
# What a polynomial in several variables denotes

Variables are natural numbers (their identifiers). A monomial denotes an exponent vector `ℕ →₀ ℕ`, a vector of terms
denotes an element of Mathlib's `MvPolynomial ℕ R`.
-/

namespace Verif.Rings

/-- The exponent vector a vector of variable powers denotes: the product of the powers. -/
noncomputable def monoVal (m : Mono) : ℕ →₀ ℕ := (m.map fun e => Finsupp.single e.1 e.2).sum

/-- The polynomial a vector of terms denotes: the sum of the terms. -/
noncomputable def mpVal {α R : Type} [CommSemiring R] (v : α → R) (p : MPoly α) : MvPolynomial ℕ R :=
  (p.map fun t => MvPolynomial.monomial (monoVal t.2) (v t.1)).sum

/-- A monomial as the library keeps it: variables in strictly increasing order, positive powers. -/
def Mono.WF (m : Mono) : Prop := m.Pairwise (fun a b => a.1 < b.1) ∧ ∀ e ∈ m, 0 < e.2

/-- A polynomial as the library keeps it: well-formed monomials, each at most once. (Coefficients may be zero and the
terms may come in any order.) -/
structure MPoly.WF {α : Type} (p : MPoly α) : Prop where
  mono : ∀ t ∈ p, Mono.WF t.2
  nodup : (p.map Prod.snd).Nodup

/-- No term has coefficient zero. -/
def MPoly.Reduced {α R : Type} [Zero R] (v : α → R) (p : MPoly α) : Prop := ∀ t ∈ p, v t.1 ≠ 0

/-- The terms are in the order of `Monomial::lexicographic_order`. -/
def MPoly.Sorted {α : Type} (p : MPoly α) : Prop := p.Pairwise fun s t => Mono.lexCmp s.2 t.2 = .lt

/-- The well-formed polynomials without zero terms: the ones that the arithmetic operations return. -/
abbrev MPoly.Canon {α R : Type} [Zero R] (v : α → R) : Type := {p : MPoly α // p.WF ∧ p.Reduced v}

end Verif.Rings
