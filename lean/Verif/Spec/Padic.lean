import Verif.Spec.RealAlg
import Verif.Model.Padic
import Mathlib.NumberTheory.Padics.PadicNumbers
import Mathlib.Data.Nat.Digits.Defs

/-!
# What p-adic balls and p-adic algebraic numbers stand for
-/

namespace Verif.Padic

open Polynomial Verif.Rings

/-- The absolute value that a valuation stands for. -/
noncomputable def Valu.norm (p : ℕ) : Valu → ℝ
  | .infinity => 0
  | .finite v => (p : ℝ) ^ (-v)

variable {p : ℕ} [Fact p.Prime]

/-- A polynomial with integer coefficients as a polynomial over the `p`-adic numbers. -/
noncomputable abbrev pv (p : ℕ) [Fact p.Prime] (f : List Int) : ℚ_[p][X] := (polyVal (id : Int → Int) f).map (Int.castRingHom ℚ_[p])

/-- The `p`-adic numbers of a ball: those that differ from the centre by valuation at least `v`. -/
def Ball.Contains (b : Ball) (x : ℚ_[p]) : Prop := ‖x - (b.a : ℚ_[p])‖ ≤ (p : ℝ) ^ (-b.v)

/-- The ball contains the root `x` of `f` and no other root of `f`. -/
structure Ball.Isolates (f : List Int) (b : Ball) (x : ℚ_[p]) : Prop where
  root : (pv p f).eval x = 0
  mem : b.Contains x
  unique : ∀ y : ℚ_[p], (pv p f).eval y = 0 → b.Contains y → y = x

/-- The radius of the ball is small enough for Newton's method to converge to the root `x` from every point of the ball. -/
def Ball.Newton (f : List Int) (b : Ball) (x : ℚ_[p]) : Prop :=
  ∀ k, (p : ℝ) ^ (-b.v) * (‖(pv p f).coeff k‖ * ‖x‖ ^ k) < ‖(derivative (pv p f)).eval x‖ * ‖x‖ ^ 2

/-- A root of a polynomial stands for the `p`-adic number `x`: its polynomial is irreducible of degree at least two, and its ball isolates `x`
among the roots of it and is small enough for Newton's method. -/
structure PRoot.Is (r : PRoot) (x : ℚ_[p]) : Prop where
  reduced : PolyReduced (id : Int → Int) r.poly
  irreducible : Irreducible (polyVal (id : Int → Int) r.poly)
  degree : 2 ≤ (polyVal (id : Int → Int) r.poly).natDegree
  isolates : r.approx.Isolates r.poly x
  newton : r.approx.Newton r.poly x

/-- What a `p`-adic algebraic number stands for. -/
def PAlg.Is : PAlg → ℚ_[p] → Prop
  | .rat q, x => x = (q : ℚ_[p])
  | .root r, x => r.Is x

/-- The leading coefficient of the polynomial of a number is positive, as it is in the values of `all_padic_roots`. -/
def PAlg.Positive : PAlg → Prop
  | .rat _ => True
  | .root r => 0 < (polyVal (id : Int → Int) r.poly).leadingCoeff

/-- The debug assertions of `refine` cannot fail for the number `x`: debug assertions are off, or the derivative of the polynomial is integral at `x`,
as it is for integral `x`. -/
def PAlg.Safe (dbg : Bool) (x : ℚ_[p]) : PAlg → Prop
  | .rat _ => True
  | .root r => dbg = true → ‖(derivative (pv p r.poly)).eval x‖ ≤ 1

/-- The same without the condition for Newton's method. -/
def PRoot.Denotes (r : PRoot) (x : ℚ_[p]) : Prop :=
  PolyReduced (id : Int → Int) r.poly ∧ Irreducible (polyVal (id : Int → Int) r.poly) ∧ 2 ≤ (polyVal (id : Int → Int) r.poly).natDegree ∧
    r.approx.Isolates r.poly x

/-- What the search for the number `w` among the roots of `f` needs: there is only one root; or all of them are safe to refine, and `w` is an
irrational number whose ball, as `all_padic_roots` gives it, has a number of digits that satisfies `ok`. -/
def SearchOk (dbg : Bool) (fac : RealRoots.Fac) (f : List Int) (w : ℚ_[p]) (ok : ℤ → Prop) : Prop :=
  ∀ l, allPadicRoots fac p f = some l → l.length ≤ 1 ∨
    ∀ c ∈ l, ∀ z : ℚ_[p], c.Is z → c.Safe dbg z ∧ (z = w → ∃ r, c = .root r ∧ ok r.approx.v)

/-- What it means that a truncation is the one of the `p`-adic number `q` modulo `p ^ c`: zero if `p ^ c` divides `q`, and otherwise the number
`value * p ^ shift` that is congruent to `q` modulo `p ^ c`, with a value of `n = c - shift` digits whose first digit is not zero. -/
def Trunc.Of (p : ℕ) [Fact p.Prime] (t : Trunc) (q : ℚ_[p]) (c : ℤ) : Prop :=
  match t with
  | .zero => ‖q‖ ≤ (p : ℝ) ^ (-c)
  | .nonZero value shift n => 0 < n ∧ shift + n = c ∧ ¬ p ∣ value ∧ value < p ^ n ∧
      ‖q - (value : ℚ_[p]) * (p : ℚ_[p]) ^ shift‖ ≤ (p : ℝ) ^ (-c)

/-- A list of `n` digits in base `p`, the first of which is not zero, times `p ^ shift` is congruent to `q` modulo `p ^ c`, with `n + shift = c`. -/
structure DigitsOf (p : ℕ) [Fact p.Prime] (ds : List ℕ) (shift : ℤ) (q : ℚ_[p]) (c : ℤ) : Prop where
  digits : ∀ d ∈ ds, d < p
  first : ∃ d, ds.head? = some d ∧ d ≠ 0
  length : (ds.length : ℤ) + shift = c
  close : ‖q - ((Nat.ofDigits p ds : ℕ) : ℚ_[p]) * (p : ℚ_[p]) ^ shift‖ ≤ (p : ℝ) ^ (-c)

end Verif.Padic
