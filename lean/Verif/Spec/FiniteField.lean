import Verif.Model.FiniteField
import Verif.Spec.Structure
import Mathlib.Algebra.Field.Basic
import Mathlib.Algebra.CharP.Defs
import Mathlib.SetTheory.Cardinal.Finite

/-!
# What it means for a structure to present a finite field
-/

namespace Verif.Rings

/-- `F` presents the finite field `K`: it presents `K` as an integral domain, `all_units` lists every non-zero element exactly once, and
`characteristic_and_power` is `(p, k)` with `p` the (prime) characteristic and `p^k` elements. -/
structure FinFieldOps.Models {α K : Type} [Field K] (F : FinFieldOps α) (v : α → K) : Prop extends
    toDomain : F.toDomainOps.Models v where
  units_ne : ∀ a ∈ F.allUnits, v a ≠ 0
  units_nodup : (F.allUnits.map v).Nodup
  units_all : ∀ x : K, x ≠ 0 → x ∈ F.allUnits.map v
  prime : F.charPow.1.Prime
  char : CharP K F.charPow.1
  card : Nat.card K = F.charPow.1 ^ F.charPow.2
  finite : Finite K

end Verif.Rings
