import Verif.Model.Complex
import Verif.Spec.Geometry
import Verif.Spec.Convex

/-!
# What collections of simplices denote

A simplex of a collection stands for its relative interior, so a collection of disjoint simplices cuts its region into pieces, and every
label has a region of its own.
-/

namespace Verif.Geometry

section
variable {α K T : Type} [Field K] [LinearOrder K] [IsStrictOrderedRing K]

/-- The closed simplex. -/
def Simplex.closedRegion (v : α → K) (D : Nat) (s : Simplex α) : Set (Fin D → K) := convexHull K (pointSet v D s.points)

/-- The open simplex. -/
def Simplex.openRegion (v : α → K) (D : Nat) (s : Simplex α) : Set (Fin D → K) := relInterior K (s.closedRegion v D)

/-- The region with one label. -/
def Coll.region (v : α → K) (D : Nat) (c : Coll α T) (label : T) : Set (Fin D → K) :=
  {x | ∃ e ∈ c.simplexes, e.2 = label ∧ x ∈ e.1.openRegion v D}

/-- The whole region. -/
def Coll.total (v : α → K) (D : Nat) (c : Coll α T) : Set (Fin D → K) := {x | ∃ e ∈ c.simplexes, x ∈ e.1.openRegion v D}

/-- A collection of the space `sp` as the constructors make it: the simplices are valid and not null, and no two entries of the hash map
have the same vertices. -/
structure Coll.Valid (v : α → K) (D : Nat) (sp : Space) (c : Coll α T) : Prop where
  ambient : c.ambient = sp
  valid : ∀ e ∈ c.simplexes, e.1.Valid v D sp
  notNull : ∀ e ∈ c.simplexes, e.1.points ≠ []
  nodup : (c.simplexes.map fun e => pointSet v D e.1.points).Nodup

/-- A disjoint union: the open simplices are pairwise disjoint. -/
def Coll.IsDisjoint (v : α → K) (D : Nat) (c : Coll α T) : Prop :=
  c.simplexes.Pairwise fun e f => Disjoint (e.1.openRegion v D) (f.1.openRegion v D)

/-- A partial simplicial complex: any two closed simplices meet in the closed simplex of their common vertices. -/
def Coll.IsPartial (v : α → K) (D : Nat) (c : Coll α T) : Prop :=
  ∀ e ∈ c.simplexes, ∀ f ∈ c.simplexes, e.1.closedRegion v D ∩ f.1.closedRegion v D = convexHull K (pointSet v D e.1.points ∩ pointSet v D f.1.points)

/-- Every face (not the null face) of a simplex of the collection is in the collection. -/
def Coll.HasFaces (v : α → K) (D : Nat) (c : Coll α T) : Prop :=
  ∀ e ∈ c.simplexes, ∀ A ⊆ pointSet v D e.1.points, A.Nonempty → ∃ f ∈ c.simplexes, pointSet v D f.1.points = A

/-- Every cell of the complex records the cells it is a proper face of, each of them once. -/
def Cplx.Records (v : α → K) (D : Nat) (c : Cplx α T) : Prop :=
  ∀ e ∈ c.cells, (e.inv.map fun t => pointSet v D t.points).Nodup ∧
    ∀ A, (∃ t ∈ e.inv, pointSet v D t.points = A) ↔ pointSet v D e.spx.points ⊂ A ∧ ∃ f ∈ c.cells, pointSet v D f.spx.points = A

end

end Verif.Geometry
