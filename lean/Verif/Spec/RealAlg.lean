import Verif.Spec.RealRoots
import Verif.Spec.PolyFactor
import Verif.Model.RealAlg
import Mathlib.Analysis.Complex.Polynomial.Basic
import Mathlib.RingTheory.Polynomial.Content

/-!
# What real algebraic numbers stand for
-/

namespace Verif.RealRoots

open Polynomial Verif.Rings

/-- `x` lies strictly between two bounds, either of which may be missing. -/
def Within (oa ob : Option ℚ) (x : ℝ) : Prop := (∀ a, oa = some a → (a : ℝ) < x) ∧ (∀ b, ob = some b → x < (b : ℝ))

/-- A root stands for the real number `r`: its polynomial is a normalised irreducible polynomial of degree at least two, `r` is the only root of it
between the tight bounds, with the sign change that the flag says, and the only root of it between the wide bounds. -/
structure ARoot.Is (x : ARoot) (r : ℝ) : Prop where
  reduced : PolyReduced (id : Int → Int) x.poly
  irreducible : Irreducible (polyVal (id : Int → Int) x.poly)
  positive : 0 < (polyVal (id : Int → Int) x.poly).leadingCoeff
  degree : 2 ≤ (polyVal (id : Int → Int) x.poly).natDegree
  tight : (RootIv.real x.ta x.tb x.dir).Isolates (rv x.poly) r
  within : Within x.wa x.wb r
  unique : ∀ y : ℝ, (rv x.poly).eval y = 0 → Within x.wa x.wb y → y = r

/-- What a real algebraic number stands for. -/
def RealAlg.Is : RealAlg → ℝ → Prop
  | .rat a, r => r = a
  | .real x, r => x.Is r

/-- The same without the last condition: the wide bounds need not tell the number from the other roots. -/
def RealAlg.Locates : RealAlg → ℝ → Prop
  | .rat a, r => r = a
  | .real x, r => PolyReduced (id : Int → Int) x.poly ∧ Irreducible (polyVal (id : Int → Int) x.poly) ∧
      0 < (polyVal (id : Int → Int) x.poly).leadingCoeff ∧ 2 ≤ (polyVal (id : Int → Int) x.poly).natDegree ∧
      (RootIv.real x.ta x.tb x.dir).Isolates (rv x.poly) r ∧ Within x.wa x.wb r

/-- The sign can be read off the tight bounds. -/
def RealAlg.OneSided : RealAlg → Prop
  | .rat _ => True
  | .real x => x.tb ≤ 0 ∨ 0 ≤ x.ta

/-- `factor` of integer polynomials is correct up to a unit, and its factors have no leading zeros. -/
structure FacOk (fac : Fac) : Prop where
  factors : ∀ p, polyVal (id : Int → Int) p ≠ 0 → ∃ pf, fac p = some (some pf) ∧ pf.Valid intPoly (polyVal (id : Int → Int)) ∧
    Associated (pf.denote (polyVal (id : Int → Int))) (polyVal (id : Int → Int) p)
  reduced : ∀ p f, fac p = some (some f) → ∀ q ∈ f.factors, PolyReduced (id : Int → Int) q.1

/-- A function for the polynomial of a sum or product (`op`) of roots of two polynomials. -/
def OpPolyOk (op : ℝ → ℝ → ℝ) (opPoly : List Int → List Int → Option (List Int)) : Prop :=
  ∀ p q, rv p ≠ 0 → rv q ≠ 0 → ∃ r, opPoly p q = some r ∧ rv r ≠ 0 ∧
    ∀ x y : ℝ, (rv p).eval x = 0 → (rv q).eval y = 0 → (rv r).eval (op x y) = 0

/-- The complex value of a polynomial with integer coefficients. -/
noncomputable abbrev cval (p : List Int) : ℂ[X] := (polyVal (id : Int → Int) p).map (Int.castRingHom ℂ)

/-- The function gives, for two nonzero polynomials, a primitive squarefree polynomial whose complex roots are exactly the combinations `op x y`
of a root `x` of the first and a root `y` of the second. -/
def OpPolyExact (op : ℂ → ℂ → ℂ) (opPoly : List Int → List Int → Option (List Int)) : Prop :=
  ∀ p q, polyVal (id : Int → Int) p ≠ 0 → polyVal (id : Int → Int) q ≠ 0 → ∃ r, opPoly p q = some r ∧
    (polyVal (id : Int → Int) r).IsPrimitive ∧ Squarefree (polyVal (id : Int → Int) r) ∧
    ∀ w : ℂ, (cval r).eval w = 0 ↔ ∃ x y, (cval p).eval x = 0 ∧ (cval q).eval y = 0 ∧ w = op x y

end Verif.RealRoots
