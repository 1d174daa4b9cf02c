import Verif.Model.Geometry

/-!
# Convex hulls

Models geometry/src/simplexes/convex_hull.rs without `as_simplicial_complex`. A panic (a failed assertion, also a debug assertion, an
`Err` that is unwrapped, or an `unwrap`) is `none`.

A hash set or hash map is a list of its entries in the order of insertion, looked up with the equality of the code (the hashes of equal
keys are assumed to be equal). The order in which a hash set is iterated is arbitrary: it comes from an oracle, which may answer
differently at every place of the run. The oracle also gives the identifiers of the new spaces.
-/

namespace Verif.Geometry

open Verif.Rings

/-- The arbitrary choices of a run: the orders of iteration over hash sets and the identifiers of new spaces. The first argument is the
place in the run. Models the iteration over `HashMap` and `HashSet` in geometry/src/simplexes/convex_hull.rs:319-334, 569-576, 676-683, 691-716 and the
counter of geometry/src/ambient_space.rs:34-42. -/
structure Oracle (α : Type) where
  ident : List Nat → Nat
  ridges : List Nat → List (Simplex α × Vec α) → List (Simplex α × Vec α)
  points : List Nat → List (Vec α) → List (Vec α)
  simplices : List Nat → List (Simplex α) → List (Simplex α)
  edges : List Nat → List (Vec α × Vec α) → List (Vec α × Vec α)

section
variable {α : Type}

/-- The choices of the part number `k` of a run. -/
def Oracle.sub (o : Oracle α) (k : Nat) : Oracle α where
  ident p := o.ident (k :: p)
  ridges p := o.ridges (k :: p)
  points p := o.points (k :: p)
  simplices p := o.simplices (k :: p)
  edges p := o.edges (k :: p)

end

/-! ## Hash sets -/

section
variable {β γ : Type} (eq : β → β → Option Bool)

/-- `contains` of a hash set, and `contains_key` of a hash map. -/
def hashHas (x : β) : List β → Option Bool
  | [] => some false
  | y :: ys => do
    let b ← eq x y
    if b then some true else hashHas x ys

/-- `insert` of a hash set: an element that is there already is kept. -/
def hashInsert (m : List β) (x : β) : Option (List β) := do
  let b ← hashHas eq x m
  some (if b then m else m ++ [x])

/-- `remove` of a hash map. -/
def hashRemove (x : β) : List (β × γ) → Option (List (β × γ))
  | [] => some []
  | e :: es => do
    let b ← eq x e.1
    let r ← hashRemove x es
    some (if b then r else e :: r)

/-- An entry is removed if its key is there and inserted otherwise.
Models geometry/src/simplexes/convex_hull.rs:280-287 and (without values) 295-302. -/
def hashToggle (m : List (β × γ)) (e : β × γ) : Option (List (β × γ)) := do
  let b ← hashHas eq e.1 (m.map Prod.fst)
  if b then hashRemove eq e.1 m else some (m ++ [e])

/-- Adds one to a count. Models geometry/src/simplexes/convex_hull.rs:141-144. -/
def hashCount : List (β × Nat) → β → Option (List (β × Nat))
  | [], x => some [(x, 1)]
  | e :: es, x => do
    let b ← eq x e.1
    if b then some ((e.1, e.2 + 1) :: es) else (hashCount es x).map fun r => e :: r

/-- `==` of hash sets: they have as many elements, and every element of one is in the other. -/
def hashSetEq (m n : List β) : Option Bool := do
  let l ← m.mapM fun x => hashHas eq x n
  some (m.length == n.length && l.all id)

end

/-! ## The convex hull -/

/-- Models `ConvexHull`, geometry/src/simplexes/convex_hull.rs:6-36. -/
structure Hull (α : Type) where
  ambient : Space
  subspace : EmbSub α
  facets : List (OSimplex α)
  interior : List (Simplex α)

section
variable {α : Type} (S : OrdOps α)

/-- `==` of vectors of simplices. -/
def OrdOps.simplicesEq : List (Simplex α) → List (Simplex α) → Option Bool
  | [], [] => some true
  | s :: ss, t :: ts => do
    let b ← S.simplexEq s t
    if b then OrdOps.simplicesEq ss ts else some false
  | _, _ => some false

/-- The interior of the empty hull and of the hull that is one point. Models geometry/src/simplexes/convex_hull.rs:93-124. -/
def OrdOps.checkLow (c : Hull α) : Option Unit :=
  match c.subspace.embedded.dim with
  | 0 => do
    assertThat (c.facets.length == 0)
    let s ← S.simplexUnwrap c.subspace.embedded []
    let b ← S.simplicesEq c.interior [s]
    assertThat b
  | 1 => do
    assertThat (c.facets.length == 1)
    let p ← Vec.construct c.subspace.embedded fun _ => none
    let s ← S.simplexUnwrap c.subspace.embedded [p]
    let b ← S.simplicesEq c.interior [s]
    assertThat b
  | _ => some ()

/-- The numbers of facets the ridges are in. Models geometry/src/simplexes/convex_hull.rs:137-147. -/
def OrdOps.ridgeCounts (c : Hull α) : Option (List (Simplex α × Nat)) := do
  let rs ← c.facets.mapM fun f => S.facets f.simplex
  rs.flatten.foldlM (hashCount S.simplexEq) []

/-- No vertex is on the negative side of a facet. Models geometry/src/simplexes/convex_hull.rs:152-175. The vertices are not put in a hash
set first, so one may be checked more than once. -/
def OrdOps.checkSides (c : Hull α) : Option Unit := do
  let pts := (c.facets.flatMap fun f => f.simplex.points) ++ c.interior.flatMap fun s => s.points
  let sides ← c.facets.mapM fun f => pts.mapM (S.classify f)
  assertThat (sides.all fun l => l.all fun x => decide (x ≠ .negative))

/-- Models `check`, geometry/src/simplexes/convex_hull.rs:70-178. All callers unwrap the result. -/
def OrdOps.hullCheck (c : Hull α) : Option Unit := do
  assertThat (decide (c.subspace.ambient = c.ambient))
  assertThat (c.facets.all fun f => decide (f.simplex.space = c.subspace.embedded))
  assertThat (c.interior.all fun s => decide (s.space = c.subspace.embedded) && s.n == c.subspace.embedded.dim)
  S.checkLow c
  assertThat (c.subspace.embedded.linDim.isNone || !c.facets.isEmpty)
  let counts ← S.ridgeCounts c
  assertThat (counts.all fun e => e.2 == 2)
  S.checkSides c

/-- Models `new_empty`, geometry/src/simplexes/convex_hull.rs:180-188. -/
def OrdOps.hullEmpty (o : Oracle α) (amb : Space) : Option (Hull α) := do
  let e ← S.emptySub (o.ident []) amb
  let s ← S.simplexUnwrap e.embedded []
  some ⟨amb, e, [], [s]⟩

/-- The facets the point is on the negative side of, and the others. Models geometry/src/simplexes/convex_hull.rs:262-273. -/
def OrdOps.partitionFacets (q : Vec α) : List (OSimplex α) → Option (List (OSimplex α) × List (OSimplex α))
  | [] => some ([], [])
  | f :: fs => do
    let side ← S.classify f q
    let r ← OrdOps.partitionFacets q fs
    some (if side = .negative then (f :: r.1, r.2) else (r.1, f :: r.2))

/-- The ridges of a facet with the other vertex. Models geometry/src/simplexes/convex_hull.rs:277-279. -/
def OrdOps.ridgeEntries (s : Simplex α) : Option (List (Simplex α × Vec α)) :=
  (List.range s.n).mapM fun i => do
    let r ← S.facet s i
    let p ← s.points[i]?
    some (r, p)

/-- The horizon. Models geometry/src/simplexes/convex_hull.rs:275-289. -/
def OrdOps.horizon (visible : List (OSimplex α)) : Option (List (Simplex α × Vec α)) := do
  let es ← visible.mapM fun f => S.ridgeEntries f.simplex
  es.flatten.foldlM (hashToggle S.simplexEq) []

/-- The horizon seen from the other side. Models geometry/src/simplexes/convex_hull.rs:292-304. -/
def OrdOps.horizonAlt (hidden : List (OSimplex α)) : Option (List (Simplex α × Unit)) := do
  let es ← hidden.mapM fun f => S.facets f.simplex
  (es.flatten.map fun r => (r, ())).foldlM (hashToggle S.simplexEq) []

/-- The new facets and the new interior when the point is in the affine span.
Models geometry/src/simplexes/convex_hull.rs:257-348; the debug assertion is in lines 305-308. -/
def OrdOps.extendInside (o : Oracle α) (c : Hull α) (q : Vec α) : Option (Hull α) := do
  let (visible, hidden) ← S.partitionFacets q c.facets
  let horizon ← S.horizon visible
  let alt ← S.horizonAlt hidden
  let b ← hashSetEq S.simplexEq (horizon.map Prod.fst) (alt.map Prod.fst)
  assertThat b
  let new ← (o.ridges [] horizon).mapM fun e => do
    let r ← S.newPositive c.subspace.embedded (e.1.points ++ [q]) e.2
    r.toOption
  let cones ← visible.mapM fun f => S.simplexUnwrap c.subspace.embedded (f.simplex.points ++ [q])
  some ⟨c.ambient, c.subspace, new ++ hidden, cones ++ c.interior⟩

/-- The facet over an old facet. Models geometry/src/simplexes/convex_hull.rs:365-406, with the debug assertions. -/
def OrdOps.coneFacet (e iota : EmbSub α) (last : Vec α) (f : OSimplex α) : Option (OSimplex α) := do
  assertThat (decide (f.simplex.space = e.embedded))
  let pts ← f.simplex.points.mapM (S.embedPoint iota)
  let ref ← match f.orientation with
    | some (_, pos) => S.embedPoint iota pos
    | none => do
      assertThat (e.embedded.dim == 1)
      let origin ← S.origin e.embedded
      let origin ← origin
      S.embedPoint iota origin
  let r ← S.newPositive iota.ambient (pts ++ [last]) ref
  r.toOption

/-- An old simplex as a facet. Models geometry/src/simplexes/convex_hull.rs:408-423, with the debug assertion. -/
def OrdOps.baseFacet (e iota : EmbSub α) (last : Vec α) (s : Simplex α) : Option (OSimplex α) := do
  assertThat (decide (s.space = e.embedded))
  let pts ← s.points.mapM (S.embedPoint iota)
  let r ← S.newPositive iota.ambient pts last
  r.toOption

/-- The cone over an old simplex. Models geometry/src/simplexes/convex_hull.rs:424-435. -/
def OrdOps.coneSimplex (iota : EmbSub α) (last : Vec α) (s : Simplex α) : Option (Simplex α) := do
  let pts ← s.points.mapM (S.embedPoint iota)
  S.simplexUnwrap iota.ambient (pts ++ [last])

/-- The new subspace, facets and interior when the point is outside the affine span.
Models geometry/src/simplexes/convex_hull.rs:349-441. -/
def OrdOps.extendOutside (o : Oracle α) (c : Hull α) (pt : Vec α) : Option (Hull α) := do
  let (iota, sub, last) ← S.extendByPoint (o.ident []) c.subspace pt
  assertThat (decide (iota.ambient = sub.embedded))
  let facets1 ← c.facets.mapM (S.coneFacet c.subspace iota last)
  let facets2 ← c.interior.mapM (S.baseFacet c.subspace iota last)
  let interior ← c.interior.mapM (S.coneSimplex iota last)
  some ⟨c.ambient, sub, facets1 ++ facets2, interior⟩

/-- Models `extend_by_point`, geometry/src/simplexes/convex_hull.rs:246-446. -/
def OrdOps.hullExtend (o : Oracle α) (c : Hull α) (pt : Vec α) : Option (Hull α) := do
  assertThat (decide (pt.space = c.ambient))
  S.hullCheck c
  let u ← S.unembedPoint c.subspace pt
  let c' ← match u with
    | some q => S.extendInside o c q
    | none => S.extendOutside o c pt
  S.hullCheck c'
  some c'

/-- The loop of `new`. Models geometry/src/simplexes/convex_hull.rs:192-194. -/
def OrdOps.hullLoop (o : Oracle α) : Nat → Hull α → List (Vec α) → Option (Hull α)
  | _, c, [] => some c
  | i, c, p :: ps => do
    let c' ← S.hullExtend (o.sub i) c p
    OrdOps.hullLoop o (i + 1) c' ps

/-- Models `new`, geometry/src/simplexes/convex_hull.rs:190-196. -/
def OrdOps.hullNew (o : Oracle α) (amb : Space) (points : List (Vec α)) : Option (Hull α) := do
  let c ← S.hullEmpty (o.sub 0) amb
  S.hullLoop o 1 c points

/-- Models `affine_span_dimension`, geometry/src/simplexes/convex_hull.rs:198-200. -/
def Hull.spanDim (c : Hull α) : Nat := c.subspace.embedded.dim

/-- Models `from_simplex`, geometry/src/simplexes/convex_hull.rs:202-214. -/
def OrdOps.hullFromSimplex (o : Oracle α) (s : Simplex α) : Option (Hull α) := do
  let r ← S.spanNew (o.ident []) s.space s.points
  let (sub, pts) ← r.toOption
  let t ← S.simplexUnwrap sub.embedded pts
  let fs ← S.orientedFacets t
  some ⟨s.space, sub, fs, [t]⟩

/-- Models `is_empty`, geometry/src/simplexes/convex_hull.rs:220-222. -/
def Hull.isEmpty (c : Hull α) : Bool := c.subspace.embedded.dim == 0

/-- Models `defining_points`, geometry/src/simplexes/convex_hull.rs:224-244, as the list of the elements of the hash set. -/
def OrdOps.definingPoints (o : Oracle α) (c : Hull α) : Option (List (Vec α)) :=
  match c.subspace.embedded.dim with
  | 0 => some []
  | 1 => do
    let rs ← S.rootAndSpan c.subspace
    let (root, span) ← rs
    assertThat (span.length == 0)
    some [root]
  | _ => do
    let pts ← (c.facets.flatMap fun f => f.simplex.points).mapM (S.embedPoint c.subspace)
    let set ← pts.foldlM (hashInsert S.vecEq) []
    some (o.points [] set)

/-- Models `embedded_interior_simplexes`, geometry/src/simplexes/convex_hull.rs:448-462. -/
def OrdOps.embeddedInterior (c : Hull α) : Option (List (Simplex α)) :=
  c.interior.mapM fun s => do
    let pts ← s.points.mapM (S.embedPoint c.subspace)
    S.simplexUnwrap c.ambient pts

/-- Models `embedded_facet_simplexes`, geometry/src/simplexes/convex_hull.rs:464-479. -/
def OrdOps.embeddedFacets (c : Hull α) : Option (List (Simplex α)) :=
  c.facets.mapM fun f => do
    let pts ← f.simplex.points.mapM (S.embedPoint c.subspace)
    S.simplexUnwrap c.ambient pts

end

/-! ## Wireframes and intersections -/

/-- Models `ConvexHullWireframe`, geometry/src/simplexes/convex_hull.rs:541-549. -/
structure Wireframe (α : Type) where
  ambient : Space
  points : List (Vec α)
  edges : List (Vec α × Vec α)

section
variable {α : Type} (S : OrdOps α)

/-- `==` of pairs of vectors. -/
def OrdOps.pairEq (x y : Vec α × Vec α) : Option Bool := do
  let b ← S.vecEq x.1 y.1
  if b then S.vecEq x.2 y.2 else some false

/-- The two ends of an edge. Models geometry/src/simplexes/convex_hull.rs:573-574. -/
def edgeEnds (s : Simplex α) : Option (Vec α × Vec α) := do
  let a ← s.points[0]?
  let b ← s.points[1]?
  some (a, b)

/-- The points of the wireframe in the embedded space. Models geometry/src/simplexes/convex_hull.rs:557-569 and 578-585, with the debug
assertions. -/
def OrdOps.outerPoints (o : Oracle α) (c : Hull α) : Option (List (Vec α)) := do
  let set ← (c.facets.flatMap fun f => f.simplex.points).foldlM (hashInsert S.vecEq) []
  let pts := o.points [] set
  if c.subspace.embedded.dim = 1 then do
    let rs ← S.rootAndSpan c.subspace
    let (_, span) ← rs
    assertThat (span.length == 0)
    assertThat (pts.length == 0)
    let p ← Vec.new c.subspace.embedded []
    some (pts ++ [p])
  else some pts

/-- The edges of the wireframe in the embedded space. Models geometry/src/simplexes/convex_hull.rs:558-576 and 587-595, with the debug
assertions. -/
def OrdOps.outerEdges (o : Oracle α) (c : Hull α) (pts : List (Vec α)) : Option (List (Vec α × Vec α)) := do
  let es ← c.facets.mapM fun f => S.skeleton f.simplex 2
  let set ← es.flatten.foldlM (hashInsert S.simplexEq) []
  let edges ← (o.simplices [] set).mapM edgeEnds
  if c.subspace.embedded.dim = 2 then do
    assertThat (pts.length == 2)
    assertThat (edges.length == 0)
    let a ← pts[0]?
    let b ← pts[1]?
    some (edges ++ [(a, b)])
  else some edges

/-- Models `from_convex_hull`, geometry/src/simplexes/convex_hull.rs:556-608. -/
def OrdOps.wireframe (o : Oracle α) (c : Hull α) : Option (Wireframe α) := do
  let pts ← S.outerPoints o c
  let edges ← S.outerEdges o c pts
  let pts' ← pts.mapM (S.embedPoint c.subspace)
  let edges' ← edges.mapM fun e => do
    let a ← S.embedPoint c.subspace e.1
    let b ← S.embedPoint c.subspace e.2
    some (a, b)
  some ⟨c.subspace.ambient, pts', edges'⟩

/-- Models `into_convex_hull`, geometry/src/simplexes/convex_hull.rs:610-612. -/
def OrdOps.wireHull (o : Oracle α) (w : Wireframe α) : Option (Hull α) := S.hullNew o w.ambient w.points

/-- The points on one side. Models geometry/src/simplexes/convex_hull.rs:625-640 (the points are put in three sets in one loop). -/
def OrdOps.sidePoints (hyp : OSimplex α) (side : Side) (pts : List (Vec α)) : Option (List (Vec α)) := do
  let sides ← pts.mapM (S.classify hyp)
  (((pts.zip sides).filter fun e => e.2 = side).map Prod.fst).foldlM (hashInsert S.vecEq) []

/-- What one edge gives: its positive part, its negative part, and the point of intersection.
Models geometry/src/simplexes/convex_hull.rs:643-674. -/
def edgeParts (a b : Vec α) (r : LineResult α) : Option (List (Vec α × Vec α) × List (Vec α × Vec α) × List (Vec α)) :=
  match r.first, r.second with
  | .positive, .positive | .positive, .neutral | .neutral, .positive => some ([(a, b)], [], [])
  | .negative, .negative | .negative, .neutral | .neutral, .negative => some ([], [(a, b)], [])
  | .neutral, .neutral => some ([], [], [])
  | .positive, .negative => r.intersection.map fun m => ([(a, m)], [(m, b)], [m])
  | .negative, .positive => r.intersection.map fun m => ([(b, m)], [(m, a)], [m])

/-- Models `intersect_with_oriented_hyperplane` of a wireframe, geometry/src/simplexes/convex_hull.rs:614-718, with the debug assertion. -/
def OrdOps.wireIntersect (o : Oracle α) (w : Wireframe α) (hyp : OSimplex α) (region : Side) : Option (Wireframe α) := do
  let pos ← S.sidePoints hyp .positive w.points
  let mid ← S.sidePoints hyp .neutral w.points
  let neg ← S.sidePoints hyp .negative w.points
  let parts ← w.edges.mapM fun e => do
    let r ← S.intersectLine hyp e.1 e.2
    edgeParts e.1 e.2 r
  let posEdges ← (parts.flatMap fun x => x.1).foldlM (hashInsert S.pairEq) []
  let negEdges ← (parts.flatMap fun x => x.2.1).foldlM (hashInsert S.pairEq) []
  let mid ← (parts.flatMap fun x => x.2.2).foldlM (hashInsert S.vecEq) mid
  let hull ← S.hullNew (o.sub 0) w.ambient (o.points [] mid)
  let m ← S.wireframe (o.sub 1) hull
  assertThat (pos.isEmpty || neg.isEmpty || !m.points.isEmpty)
  let points ← m.points.foldlM (hashInsert S.vecEq) []
  let edges ← m.edges.foldlM (hashInsert S.pairEq) []
  let (points, edges) ← match region with
    | .positive => do
      let points ← (o.points [0] pos).foldlM (hashInsert S.vecEq) points
      let edges ← (o.edges [0] posEdges).foldlM (hashInsert S.pairEq) edges
      some (points, edges)
    | .neutral => some (points, edges)
    | .negative => do
      let points ← (o.points [0] neg).foldlM (hashInsert S.vecEq) points
      let edges ← (o.edges [0] negEdges).foldlM (hashInsert S.pairEq) edges
      some (points, edges)
  some ⟨w.ambient, o.points [1] points, o.edges [1] edges⟩

/-- Models `intersect_with_oriented_hyperplane`, geometry/src/simplexes/convex_hull.rs:726-734. -/
def OrdOps.hullHalf (o : Oracle α) (c : Hull α) (hyp : OSimplex α) (region : Side) : Option (Hull α) := do
  let w ← S.wireframe (o.sub 0) c
  let w' ← S.wireIntersect (o.sub 1) w hyp region
  S.wireHull (o.sub 2) w'

/-- Step 1 of `intersect_mut`. Models geometry/src/simplexes/convex_hull.rs:741-745. -/
def OrdOps.halfLoop (o : Oracle α) : Nat → Hull α → List (OSimplex α) → Option (Hull α)
  | _, c, [] => some c
  | i, c, hyp :: hs => do
    let c' ← S.hullHalf (o.sub i) c hyp .neutral
    OrdOps.halfLoop o (i + 1) c' hs

/-- Step 3 of `intersect_mut`. Models geometry/src/simplexes/convex_hull.rs:763-770. -/
def OrdOps.wireLoop (o : Oracle α) : Nat → Wireframe α → List (OSimplex α) → Option (Wireframe α)
  | _, w, [] => some w
  | i, w, f :: fs => do
    let w' ← S.wireIntersect (o.sub i) w f .positive
    OrdOps.wireLoop o (i + 1) w' fs

/-- Models `intersect_mut` and `intersect`, geometry/src/simplexes/convex_hull.rs:736-794, with the debug assertion. -/
def OrdOps.hullIntersect (o : Oracle α) (c other : Hull α) : Option (Hull α) := do
  assertThat (decide (c.subspace.ambient = other.subspace.ambient))
  let hyps ← S.asHyperplanes other.subspace
  match hyps with
  | none => S.hullEmpty (o.sub 0) c.ambient
  | some hyps => do
    let c1 ← S.halfLoop (o.sub 1) 0 c hyps
    let dp ← S.definingPoints (o.sub 2) c1
    let us ← dp.mapM fun p => (S.unembedPoint other.subspace p).bind id
    let c2 ← S.hullNew (o.sub 3) other.subspace.embedded us
    assertThat (c2.subspace.embedded.dim == c1.subspace.embedded.dim)
    let w ← S.wireframe (o.sub 4) c2
    let w' ← S.wireLoop (o.sub 5) 0 w other.facets
    let c3 ← S.wireHull (o.sub 6) w'
    let dp ← S.definingPoints (o.sub 7) c3
    let es ← dp.mapM (S.embedPoint other.subspace)
    S.hullNew (o.sub 8) c1.subspace.ambient es

end

end Verif.Geometry
