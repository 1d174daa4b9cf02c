import Verif.Model.MultiPoly
import Verif.Model.RealRoots

/-!
# Polynomials of sums and products of roots

Models rings/src/number/algebraic/poly_tools.rs:9-43. The variables are fresh, so they are parameters; the theorems ask that they are different.
-/

namespace Verif.RealRoots

open Verif.Rings

/-- The polynomials in several variables over the integers. Models rings/src/polynomial/multipoly.rs:403-548. -/
def intMulti (H : HashOrder) : DomainOps (MPoly Int) := intOps.multi H

/-- The resultant, written in one variable, and its primitive squarefree part. Models rings/src/number/algebraic/poly_tools.rs:21-24, 38-41. -/
def resultantIn (H : HashOrder) (z : Nat) (p r : List (MPoly Int)) : Option (List Int) := do
  let s ← (intMulti H).polyResultant p r
  let u ← (intOps.mpExpand s z).mapM fun c => intOps.mpAsConstant c
  intGcd.polyPrimSquarefreePart u

/-- `q(z - x)`, as a polynomial in `x`. Models rings/src/number/algebraic/poly_tools.rs:14-19. -/
def shiftedPoly (H : HashOrder) (x z : Nat) (q : List Int) : List (MPoly Int) :=
  intOps.mpExpand ((intMulti H).polyEvaluate (q.map MPoly.constant)
    ((intMulti H).add (intOps.mpVar z) ((intMulti H).neg (intOps.mpVar x)))) x

/-- Models `root_sum_poly`, rings/src/number/algebraic/poly_tools.rs:9-26. -/
def rootSumPoly (H : HashOrder) (x z : Nat) (p q : List Int) : Option (List Int) :=
  resultantIn H z (p.map MPoly.constant) (shiftedPoly H x z q)

/-- `x^n q(t/x)` with the roles of the variables as in the code: the homogenization of `q(x)` with `t`, as a polynomial in `t`. Models
rings/src/number/algebraic/poly_tools.rs:33-37. -/
def twistedPoly (H : HashOrder) (x t : Nat) (q : List Int) : Option (List (MPoly Int)) := do
  let h ← intOps.mpHomogenize ((intMulti H).polyEvaluate (q.map MPoly.constant) (intOps.mpVar x)) t
  some (intOps.mpExpand h t)

/-- Models `root_product_poly`, rings/src/number/algebraic/poly_tools.rs:28-43. -/
def rootProductPoly (H : HashOrder) (x t : Nat) (p q : List Int) : Option (List Int) := do
  let r ← twistedPoly H x t q
  resultantIn H x (p.map MPoly.constant) r

end Verif.RealRoots
