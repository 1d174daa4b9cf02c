import Verif.Model.Lattice
import Verif.Model.Polynomial

/-!
# Interpolation by a linear system

Models `interpolate_by_linear_system` of rings/src/polynomial/polynomial.rs:854-901.
-/

namespace Verif.Rings

section
variable {α : Type} (S : BezoutOps α)

/-- The body of the inner loop: write the power of `x` in column `c` and multiply it by `x`. Models rings/src/polynomial/polynomial.rs:879-882. -/
def BezoutOps.linSysEntry (x : α) (r : Nat) (st : Mat α × α) (c : Nat) : Option (Mat α × α) :=
  (st.1.set r c st.2).map fun m => (m, S.mul st.2 x)

/-- The body of the outer loop. Models rings/src/polynomial/polynomial.rs:876-883. -/
def BezoutOps.linSysRow (points : List (α × α)) (mat : Mat α) (r : Nat) : Option (Mat α) :=
  ((List.range points.length).foldlM (S.linSysEntry (points.getD r (S.zero, S.zero)).1 r) (mat, S.one)).map Prod.fst

/-- The body of the loop of the right hand side. Models rings/src/polynomial/polynomial.rs:886-889. -/
def BezoutOps.linSysOut (points : List (α × α)) (vec : Mat α) (r : Nat) : Option (Mat α) :=
  vec.set r 0 (points.getD r (S.zero, S.zero)).2

/-- Models `interpolate_by_linear_system`, rings/src/polynomial/polynomial.rs:855-900. -/
def BezoutOps.polyInterpolateLinear (points : List (α × α)) : Option (Option (List α)) := do
  let n := points.length
  let z ← S.toSemiRingOps.matZero n n
  let mat ← (List.range n).foldlM (S.linSysRow points) z
  let z' ← S.toSemiRingOps.matZero n 1
  let vec ← (List.range n).foldlM (S.linSysOut points) z'
  match ← S.colSolve mat vec with
  | some c => ((List.range n).mapM fun i => c.get i 0).map some
  | none => some none

end
end Verif.Rings
