import Verif.Model.RealRoots
import Verif.Spec.Polynomial
import Mathlib.Algebra.Polynomial.Eval.Defs
import Mathlib.Data.Real.Basic

/-!
# What a list of isolating intervals says
-/

namespace Verif.RealRoots

open Polynomial Verif.Rings

/-- The real polynomial of a list of integer coefficients. -/
noncomputable def rv (p : List Int) : ℝ[X] := polyVal (fun c : Int => (c : ℝ)) p

/-- An interval isolates the root `r` of `f`: it is `r` itself, or an interval with `r` as only root, strictly inside, and the signs of `f`
at the ends are different, in the order the flag says. -/
def RootIv.Isolates (f : ℝ[X]) : RootIv → ℝ → Prop
  | .rational a, r => r = a ∧ f.eval r = 0
  | .real a b incr, r => a < r ∧ r < b ∧ f.eval r = 0 ∧ (∀ x : ℝ, a ≤ x → x ≤ b → f.eval x = 0 → x = r) ∧
      (if incr then f.eval (a : ℝ) < 0 ∧ 0 < f.eval (b : ℝ) else 0 < f.eval (a : ℝ) ∧ f.eval (b : ℝ) < 0)

/-- The lower end. -/
def RootIv.lo : RootIv → ℚ
  | .rational a => a
  | .real a _ _ => a

/-- The upper end. -/
def RootIv.hi : RootIv → ℚ
  | .rational a => a
  | .real _ b _ => b

/-- The intervals isolate the real numbers of the list, one each, from left to right and without overlap. -/
structure SqRoots.Isolates (R : SqRoots) (rs : List ℝ) : Prop where
  sorted : rs.Pairwise (· < ·)
  isolates : List.Forall₂ (RootIv.Isolates (rv R.poly)) R.ivs rs
  ordered : R.ivs.Pairwise fun u v => u.hi ≤ v.lo

/-- The range a call asks for. -/
def InRange (oa ob : Option ℚ) (inclA inclB : Bool) (x : ℝ) : Prop :=
  (∀ a, oa = some a → (a : ℝ) < x ∨ (inclA = true ∧ x = a)) ∧ (∀ b, ob = some b → x < b ∨ (inclB = true ∧ x = b))

/-- The order of the rationals: the simplest rational of an open interval is in it. -/
def SimplestOk (simplest : ℚ → ℚ → ℚ) : Prop := ∀ a b, a < b → a < simplest a b ∧ simplest a b < b

end Verif.RealRoots
