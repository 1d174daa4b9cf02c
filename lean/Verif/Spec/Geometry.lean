import Verif.Model.Geometry
import Verif.Spec.Matrix
import Mathlib.LinearAlgebra.AffineSpace.Independent
import Mathlib.LinearAlgebra.AffineSpace.FiniteDimensional
import Mathlib.Analysis.Convex.Side
import Mathlib.Algebra.Order.Field.Basic
import Mathlib.Data.List.FinRange

/-!
# What vectors, simplices, hyperplanes and affine subspaces denote

The coordinates are representatives of elements of an ordered field `K`. A vector of a space of affine dimension `d + 1` denotes a point
of `Fin d → K`.
-/

namespace Verif.Geometry

open Verif.Rings

/-- `S` presents the ordered field `K`. -/
structure OrdOps.Models {α K : Type} [Field K] [LinearOrder K] (S : OrdOps α) (v : α → K) : Prop extends
    toDomain : S.toDomainOps.Models v where
  cmp : ∀ a b, S.cmp a b = compare (v a) (v b)

/-- `p` is a vector of the space `sp`: every vector made by the constructors is. -/
structure Vec.In {α : Type} (sp : Space) (p : Vec α) : Prop where
  space : p.space = sp
  length : p.coords.length + 1 = sp.dim

section
variable {α K : Type} [Field K]

/-- The point a vector denotes. -/
def Vec.val (v : α → K) (d : Nat) (p : Vec α) : Fin d → K := fun i => ((p.coords[(i : Nat)]?).map v).getD 0

/-- The points a list of vectors denotes, in order. -/
def pointsOf (v : α → K) (d : Nat) (l : List (Vec α)) : Fin l.length → Fin d → K := fun i => l[i].val v d

/-- The points a list of vectors denotes, as a set. -/
def pointSet (v : α → K) (d : Nat) (l : List (Vec α)) : Set (Fin d → K) := {x | ∃ p ∈ l, p.val v d = x}

/-- The vectors of the list are vectors of the space `sp` and denote affinely independent points. -/
structure Independent (v : α → K) (d : Nat) (sp : Space) (l : List (Vec α)) : Prop where
  mem : ∀ p ∈ l, p.In sp
  indep : AffineIndependent K (pointsOf v d l)

/-- A valid simplex of the space `sp`: the vertices are affinely independent and sorted lexicographically. -/
structure Simplex.Valid [LinearOrder K] (v : α → K) (d : Nat) (sp : Space) (s : Simplex α) : Prop where
  space : s.space = sp
  points : Independent v d sp s.points
  sorted : s.points.Pairwise fun p q => toLex (p.val v d) < toLex (q.val v d)

/-- The affine subspace spanned by the vertices. -/
def Simplex.span (v : α → K) (d : Nat) (s : Simplex α) : AffineSubspace K (Fin d → K) := affineSpan K (pointSet v d s.points)

/-- A valid oriented simplex: its simplex is valid and has as many vertices as the space has coordinates (it spans a hyperplane). It has a
reference point exactly when it has a vertex, and the reference point is classified positive. -/
structure OSimplex.Valid [LinearOrder K] (S : OrdOps α) (v : α → K) (d : Nat) (sp : Space) (o : OSimplex α) : Prop where
  simplex : o.simplex.Valid v d sp
  length : o.simplex.points.length = d
  reference : ∀ f r, o.orientation = some (f, r) → r.In sp ∧ S.classify o r = some .positive
  empty : o.orientation = none ↔ d = 0

/-- A valid embedded subspace: the points of the embedded space that span it are affinely independent points of the ambient space, and the
number of points is the affine dimension of the embedded space. -/
structure EmbSub.Valid (v : α → K) (d : Nat) (e : EmbSub α) : Prop where
  dim : e.ambient.dim = d + 1
  points : Independent v d e.ambient e.points
  embedded : e.embedded.dim = e.points.length

end

end Verif.Geometry
