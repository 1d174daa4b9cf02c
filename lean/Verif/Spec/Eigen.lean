import Verif.Spec.Structure
import Verif.Spec.Polynomial
import Verif.Model.Eigen
import Mathlib.Algebra.Polynomial.Roots

/-!
# Algebraically closed fields: what the required methods should mean
-/

namespace Verif.Rings
open Polynomial

/-- The base field stands for `K` and the other field for `L`: factoring polynomials over `K` is right, and `all_roots_list` gives all the roots
in `L` with multiplicity; both give `None` exactly for the zero polynomial. -/
structure ClosureOps.Sound {β α K L : Type} [Field K] [Field L] [Algebra K L] (C : ClosureOps β α) (v : β → K) (w : α → L) : Prop where
  base : C.base.Models v
  inclusion : ∀ b, w (C.inclusion b) = algebraMap K L (v b)
  factor_zero : ∀ p, polyVal v p = 0 → C.factor p = some none
  factor_ne : ∀ p, polyVal v p ≠ 0 → ∃ F, C.factor p = some (some F) ∧ F.Valid C.base.fieldFav.poly (polyVal v) ∧
    Associated (F.denote (polyVal v)) (polyVal v p)
  roots_zero : ∀ p, polyVal v p = 0 → C.rootsList p = some none
  roots_ne : ∀ p, polyVal v p ≠ 0 → ∃ l, C.rootsList p = some (some l) ∧
    ((l.map w : List L) : Multiset L) = ((polyVal v p).map (algebraMap K L)).roots

end Verif.Rings
