import Mathlib.Analysis.Convex.Combination
import Mathlib.Analysis.Convex.Side

/-! # Convex sets over an ordered field: relative interiors and open simplices

The notions are those of convex geometry; they are written without a topology because the field is any ordered field. -/

namespace Verif.Geometry

variable (K : Type) {E : Type} [Field K] [LinearOrder K] [AddCommGroup E] [Module K E]

/-- The relative interior of a convex set: the points `x` such that every segment of the set that ends in `x` can be prolonged beyond `x`
inside the set. -/
def relInterior (X : Set E) : Set E := {x ∈ X | ∀ y ∈ X, ∃ t : K, 1 < t ∧ AffineMap.lineMap y x t ∈ X}

/-- The relative boundary of a convex set (a closed one: the points of the set that are not in the relative interior). -/
def relBoundary (X : Set E) : Set E := X \ relInterior K X

/-- The open simplex with the given vertices: the convex combinations where every vertex has a positive weight. -/
def openSimplex (A : Finset E) : Set E := {x | ∃ w : E → K, (∀ a ∈ A, 0 < w a) ∧ ∑ a ∈ A, w a = 1 ∧ ∑ a ∈ A, w a • a = x}

end Verif.Geometry
