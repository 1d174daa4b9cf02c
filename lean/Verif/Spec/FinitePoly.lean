import Verif.Model.FinitePoly
import Verif.Spec.Polynomial
import Verif.Spec.FiniteField
import Mathlib.Algebra.Squarefree.Basic
import Mathlib.RingTheory.Coprime.Basic
import Mathlib.Algebra.Polynomial.Monic

/-!
# What the stages of a factorization over a finite field mean
-/

namespace Verif.Rings

open Polynomial

/-- The polynomial that a monic factorization denotes. -/
noncomputable def MonicFac.denote {α K : Type} [Field K] (v : α → K) (m : MonicFac α) : K[X] := C (v m.unit) * polyVal v m.monic

/-- The polynomial that a squarefree factorization denotes. -/
noncomputable def SqFac.denote {α K : Type} [Field K] (v : α → K) (s : SqFac α) : K[X] :=
  C (v s.unit) * (s.factors.map fun p => polyVal v p.1 ^ p.2).prod

/-- A valid squarefree factorization: a non-zero unit and monic, squarefree, non-constant, pairwise coprime factors with positive,
pairwise different exponents. -/
structure SqFac.Valid {α K : Type} [Field K] (v : α → K) (s : SqFac α) : Prop where
  unit : v s.unit ≠ 0
  monic : ∀ p ∈ s.factors, (polyVal v p.1).Monic
  nonconstant : ∀ p ∈ s.factors, 0 < (polyVal v p.1).natDegree
  squarefree : ∀ p ∈ s.factors, Squarefree (polyVal v p.1)
  pos : ∀ p ∈ s.factors, 0 < p.2
  coprime : s.factors.Pairwise fun p p' => IsCoprime (polyVal v p.1) (polyVal v p'.1)
  exponents : (s.factors.map Prod.snd).Nodup

/-- The polynomial that a distinct degree factorization denotes. -/
noncomputable def DdFac.denote {α K : Type} [Field K] (v : α → K) (s : DdFac α) : K[X] :=
  C (v s.unit) * (s.factors.map fun p => polyVal v p.1.2 ^ p.2).prod

/-- A valid distinct degree factorization. An entry is `((d, g), k)`: the monic squarefree non-constant polynomial `g`, all of whose
irreducible factors have degree `d`, occurs with exponent `k`. The polynomials are pairwise coprime. -/
structure DdFac.Valid {α K : Type} [Field K] (v : α → K) (s : DdFac α) : Prop where
  unit : v s.unit ≠ 0
  monic : ∀ e ∈ s.factors, (polyVal v e.1.2).Monic
  nonconstant : ∀ e ∈ s.factors, 0 < (polyVal v e.1.2).natDegree
  squarefree : ∀ e ∈ s.factors, Squarefree (polyVal v e.1.2)
  pos : ∀ e ∈ s.factors, 0 < e.2
  degree : ∀ e ∈ s.factors, ∀ π : K[X], Irreducible π → π ∣ polyVal v e.1.2 → π.natDegree = e.1.1
  coprime : s.factors.Pairwise fun e e' => IsCoprime (polyVal v e.1.2) (polyVal v e'.1.2)

/-- A stream of field elements in which, for every `n`, every word of length `n` occurs infinitely often at a position that is a
multiple of `n`. A stream of independent uniformly distributed elements has this property with probability one. -/
def FairStream {α K : Type} (v : α → K) (rand : Nat → α) : Prop :=
  ∀ n : Nat, 0 < n → ∀ (w : Fin n → K) (m : Nat), ∃ k, m ≤ k ∧ ∀ i : Fin n, v (rand (k * n + i)) = w i

end Verif.Rings
