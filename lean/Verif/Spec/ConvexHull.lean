import Verif.Model.ConvexHull
import Verif.Spec.Geometry
import Verif.Spec.Convex

/-!
# What convex hulls denote

A hull is made by one of the constructors and changed by `extend_by_point`, by the intersection with one side of a hyperplane, and by the
intersection with another hull. `Built S v D c X` says that `c` is the result of such a history, and that `X` is the set the history
stands for: `X` is computed from the arguments with the convex hull and the intersection of sets alone.
-/

namespace Verif.Geometry

/-- Every iteration over a hash set visits each of its elements once. The order is arbitrary. -/
structure Oracle.Fair {α : Type} (o : Oracle α) : Prop where
  ridges : ∀ p L, (o.ridges p L).Perm L
  points : ∀ p L, (o.points p L).Perm L
  simplices : ∀ p L, (o.simplices p L).Perm L
  edges : ∀ p L, (o.edges p L).Perm L

section
variable {α K : Type} [Field K] [LinearOrder K] [IsStrictOrderedRing K]

/-- The closed region on one side of a hyperplane (the side of the reference point is the positive one), and the hyperplane itself. In a
space that is one point the hyperplane is empty and has no sides: every point counts as neutral and the regions are the whole space. -/
def OSimplex.closedRegion (v : α → K) (D : Nat) (hyp : OSimplex α) (side : Side) : Set (Fin D → K) :=
  match hyp.orientation with
  | none => Set.univ
  | some (_, ref) =>
    match side with
    | .positive => {x | (hyp.simplex.span v D).WSameSide (ref.val v D) x}
    | .neutral => {x | x ∈ hyp.simplex.span v D}
    | .negative => {x | (hyp.simplex.span v D).WOppSide (ref.val v D) x}

/-- The hull `c` of a space of dimension `D` is the result of a history that stands for the set `X`. -/
inductive Built (S : OrdOps α) (v : α → K) (D : Nat) : Hull α → Set (Fin D → K) → Prop
  | new (o : Oracle α) (ho : o.Fair) (sp : Space) (hd : sp.dim = D + 1) (pts : List (Vec α)) (hp : ∀ p ∈ pts, p.In sp) {c : Hull α}
      (hc : S.hullNew o sp pts = some c) : Built S v D c (convexHull K (pointSet v D pts))
  | simplex (o : Oracle α) (ho : o.Fair) (sp : Space) (hd : sp.dim = D + 1) (s : Simplex α) (hs : s.Valid v D sp) {c : Hull α}
      (hc : S.hullFromSimplex o s = some c) : Built S v D c (convexHull K (pointSet v D s.points))
  | extend {c : Hull α} {X : Set (Fin D → K)} (hb : Built S v D c X) (o : Oracle α) (ho : o.Fair) (pt : Vec α) (hp : pt.In c.ambient)
      {c' : Hull α} (hc : S.hullExtend o c pt = some c') : Built S v D c' (convexHull K (insert (pt.val v D) X))
  | half {c : Hull α} {X : Set (Fin D → K)} (hb : Built S v D c X) (o : Oracle α) (ho : o.Fair) (hyp : OSimplex α)
      (hv : hyp.Valid S v D c.ambient) (side : Side) {c' : Hull α} (hc : S.hullHalf o c hyp side = some c') :
      Built S v D c' (X ∩ hyp.closedRegion v D side)
  | intersect {c : Hull α} {X : Set (Fin D → K)} (hb : Built S v D c X) {e : Hull α} {Y : Set (Fin D → K)} (he : Built S v D e Y)
      (ha : e.ambient = c.ambient) (o : Oracle α) (ho : o.Fair) {c' : Hull α} (hc : S.hullIntersect o c e = some c') :
      Built S v D c' (X ∩ Y)

end

end Verif.Geometry
