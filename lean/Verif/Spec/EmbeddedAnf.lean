import Verif.Spec.AnfFactor
import Verif.Model.EmbeddedAnf
import Mathlib.Analysis.Complex.Basic

/-!
# Algebraic numbers: what the operations should mean
-/

namespace Verif.Anf
open Verif.Rings Polynomial

/-- Whenever the operations return, their results are right for the complex numbers `val a`: `min_poly` is an irreducible polynomial with the
number as a root, `apply_poly` evaluates, `eq` decides equality. -/
structure AlgOps.Sound {A : Type} (O : AlgOps A) (val : A → ℂ) : Prop where
  minPoly : ∀ a m, O.minPoly a = some m → Irreducible (polyVal (id : ℚ → ℚ) m) ∧ aeval (val a) (polyVal (id : ℚ → ℚ) m) = 0
  applyPoly : ∀ a p b, O.applyPoly a p = some b → val b = aeval (val a) (polyVal (id : ℚ → ℚ) p)
  eq : ∀ a b r, O.eq a b = some r → (r = true ↔ val a = val b)
  add : ∀ a b c, O.add a b = some c → val c = val a + val b
  mul : ∀ a b c, O.mul a b = some c → val c = val a * val b
  ofRat : ∀ q : ℚ, val (O.ofRat q) = q

end Verif.Anf
