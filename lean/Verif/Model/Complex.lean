import Verif.Model.ConvexHull

/-!
# Simplicial complexes and Boolean operations

Models `as_simplicial_complex` of geometry/src/simplexes/convex_hull.rs, the constructors
of geometry/src/simplexes/simplicial_complex.rs, geometry/src/simplexes/simplex_collection.rs,
geometry/src/simplexes/partial_simplicial_complex.rs without `simplify`, and of geometry/src/simplexes/boolean_opperations.rs the Venn
decomposition and the operations on disjoint unions. Not modelled: `interior_and_boundary`, `simplify`, and the refinement of a disjoint union
(`refine_to_partial_simplicial_complex`) with what is built on it.

Hash sets and hash maps are lists, as in `Verif.Model.ConvexHull`; a hash map that is an argument is the list of its entries in the order
of iteration. A panic is `none`.
-/

namespace Verif.Geometry

open Verif.Rings

/-- Models `InteriorBoundaryLabel`, geometry/src/simplexes/mod.rs:41-45. -/
inductive IBLabel
  | interior
  | boundary
deriving DecidableEq, Repr

/-- Models `VennLabel`, geometry/src/simplexes/boolean_opperations.rs:6-10. -/
inductive VennLabel
  | left
  | middle
  | right
deriving DecidableEq, Repr

/-- The two errors of `new_labelled`, geometry/src/simplexes/simplicial_complex.rs:71 and 95. -/
inductive ComplexErr
  | null
  | notClosed
deriving DecidableEq, Repr

/-- A simplex of a complex with its label and the simplices it is a proper face of.
Models `SCSpxInfo`, geometry/src/simplexes/simplicial_complex.rs:6-13. -/
structure Cell (α T : Type) where
  spx : Simplex α
  inv : List (Simplex α)
  label : T

/-- Models `LabelledSimplicialComplex`, geometry/src/simplexes/simplicial_complex.rs:29-36. -/
structure Cplx (α T : Type) where
  ambient : Space
  cells : List (Cell α T)

/-- Models `LabelledPartialSimplicialComplex`, geometry/src/simplexes/partial_simplicial_complex.rs:6-13, and
`LabelledSimplicialDisjointUnion`, geometry/src/simplexes/simplicial_disjoint_union.rs:6-15. -/
structure Coll (α T : Type) where
  ambient : Space
  simplexes : List (Simplex α × T)

section
variable {α T U : Type} (S : OrdOps α)

/-- `get_mut` on the face, and the insertion in its set; the inner option is the result of `get_mut`.
Models geometry/src/simplexes/simplicial_complex.rs:90-97. -/
def OrdOps.addInv (b s : Simplex α) : List (Cell α T) → Option (Option (List (Cell α T)))
  | [] => some none
  | e :: es => do
    let q ← S.simplexEq b e.spx
    if q then do
      let inv ← hashInsert S.simplexEq e.inv s
      some (some ({ e with inv := inv } :: es))
    else do
      let r ← OrdOps.addInv b s es
      some (r.map (e :: ·))

/-- The loop over the pairs of a face and a simplex. Models geometry/src/simplexes/simplicial_complex.rs:88-99. -/
def OrdOps.invLoop : List (Simplex α × Simplex α) → List (Cell α T) → Option (Except ComplexErr (List (Cell α T)))
  | [], es => some (.ok es)
  | p :: ps, es => do
    let r ← S.addInv p.1 p.2 es
    match r with
    | none => some (.error .notClosed)
    | some es' => OrdOps.invLoop ps es'

/-- The first loop. Models geometry/src/simplexes/simplicial_complex.rs:68-73. -/
def nullLoop (amb : Space) : List (Simplex α × T) → Option (Except ComplexErr Unit)
  | [] => some (.ok ())
  | e :: es => do
    assertThat (decide (e.1.space = amb))
    if e.1.points.length = 0 then some (.error .null) else nullLoop amb es

/-- Models `new_labelled`, geometry/src/simplexes/simplicial_complex.rs:64-105. The faces of all the simplices are computed before the
second loop starts. -/
def OrdOps.newLabelled (amb : Space) (m : List (Simplex α × T)) : Option (Except ComplexErr (Cplx α T)) := do
  let r ← nullLoop amb m
  match r with
  | .error e => some (.error e)
  | .ok _ => do
    let ps ← m.mapM fun e => (S.properSubSimplicesNotNull e.1).map fun l => l.map fun b => (b, e.1)
    let r ← S.invLoop ps.flatten (m.map fun e => ⟨e.1, [], e.2⟩)
    match r with
    | .error e => some (.error e)
    | .ok cells => some (.ok ⟨amb, cells⟩)

/-- Models `labelled_simplexes`, geometry/src/simplexes/simplicial_complex.rs:115-120. -/
def Cplx.labelled (c : Cplx α T) : List (Simplex α × T) := c.cells.map fun e => (e.spx, e.label)

/-- Models `into_partial_simplicial_complex`, geometry/src/simplexes/simplicial_complex.rs:129-137. -/
def Cplx.toPartial (c : Cplx α T) : Coll α T := ⟨c.ambient, c.labelled⟩

/-- Models `subset_by_filter`, geometry/src/simplexes/simplex_collection.rs:75-84. -/
def Coll.subsetByFilter (c : Coll α T) (f : T → Bool) : Coll α T := ⟨c.ambient, c.simplexes.filter fun e => f e.2⟩

/-- Models `apply_label_function`, geometry/src/simplexes/simplex_collection.rs:97-105. -/
def Coll.mapLabel (c : Coll α T) (f : T → U) : Coll α U := ⟨c.ambient, c.simplexes.map fun e => (e.1, f e.2)⟩

/-- Models `subset_by_label`, geometry/src/simplexes/simplex_collection.rs:61-67. -/
def Coll.subsetByLabel [DecidableEq T] (c : Coll α T) (label : T) : Coll α Unit := (c.subsetByFilter fun l => l = label).mapLabel fun _ => ()

/-- Models `into_simplexes`, geometry/src/simplexes/simplex_collection.rs:51-56. -/
def Coll.spxs (c : Coll α T) : List (Simplex α) := c.simplexes.map Prod.fst

/-- Models `subset_by_label` of a complex (the result is a partial complex), geometry/src/simplexes/simplex_collection.rs:61-67. -/
def Cplx.subsetByLabel [DecidableEq T] (c : Cplx α T) (label : T) : Coll α Unit := c.toPartial.subsetByLabel label

/-- Models `try_as_simplicial_complex`, geometry/src/simplexes/partial_simplicial_complex.rs:80-84. -/
def OrdOps.tryComplex (c : Coll α T) : Option (Except ComplexErr (Cplx α T)) := S.newLabelled c.ambient c.simplexes

/-- The value of a key of a hash map. -/
def hashGet {β γ : Type} (eq : β → β → Option Bool) (x : β) : List (β × γ) → Option (Option γ)
  | [] => some none
  | e :: es => do
    let b ← eq x e.1
    if b then some (some e.2) else hashGet eq x es

/-- Models `closure`, geometry/src/simplexes/partial_simplicial_complex.rs:86-104. -/
def OrdOps.closure (o : Oracle α) (c : Coll α T) : Option (Cplx α (Option T)) := do
  let subs ← c.simplexes.mapM fun e => S.subSimplicesNotNull e.1
  let set ← subs.flatten.foldlM (hashInsert S.simplexEq) []
  let m ← (o.simplices [] set).mapM fun s => do
    let l ← hashGet S.simplexEq s c.simplexes
    some (s, l)
  let r ← S.newLabelled c.ambient m
  r.toOption

/-- The set of the faces of some simplices. Models geometry/src/simplexes/convex_hull.rs:484-489. -/
def OrdOps.faceSet (start l : List (Simplex α)) : Option (List (Simplex α)) := do
  let subs ← l.mapM S.subSimplicesNotNull
  subs.flatten.foldlM (hashInsert S.simplexEq) start

/-- Models `as_simplicial_complex`, geometry/src/simplexes/convex_hull.rs:481-515. -/
def OrdOps.asComplex (o : Oracle α) (c : Hull α) : Option (Cplx α IBLabel) := do
  let facets ← S.embeddedFacets c
  let boundary ← S.faceSet [] facets
  let interior ← S.embeddedInterior c
  let all ← S.faceSet (o.simplices [0] boundary) interior
  let m ← (o.simplices [1] all).mapM fun s => do
    let b ← hashHas S.simplexEq s boundary
    some (s, if b then IBLabel.boundary else .interior)
  let r ← S.newLabelled c.subspace.ambient m
  r.toOption

/-- The open pieces of a simplex when the overlap is cut out of it. Models geometry/src/simplexes/boolean_opperations.rs:24-31 and 33-40. -/
def OrdOps.vennParts (o : Oracle α) (overlap : Hull α) (s : Simplex α) : Option (List (Simplex α)) := do
  let ext ← S.hullLoop (o.sub 0) 0 overlap s.points
  let c ← S.asComplex (o.sub 1) ext
  some (o.simplices [2] (c.subsetByLabel .interior).spxs)

/-- The union of two hash sets. Models geometry/src/simplexes/boolean_opperations.rs:42. -/
def OrdOps.spxUnion (a b : List (Simplex α)) : Option (List (Simplex α)) := b.foldlM (hashInsert S.simplexEq) a

/-- The label of a piece that is, or is not, a piece of the two simplices. Models geometry/src/simplexes/boolean_opperations.rs:46-57. -/
def vennLabel : Bool → Bool → Option VennLabel
  | true, false => some .left
  | true, true => some .middle
  | false, true => some .right
  | false, false => none

/-- Models `venn`, geometry/src/simplexes/boolean_opperations.rs:16-60. -/
def OrdOps.venn (o : Oracle α) (s t : Simplex α) : Option (Coll α VennLabel) := do
  let amb ← commonSpace s.space t.space
  let hs ← S.hullFromSimplex (o.sub 0) s
  let ht ← S.hullFromSimplex (o.sub 1) t
  let overlap ← S.hullIntersect (o.sub 2) hs ht
  let ps ← S.vennParts (o.sub 3) overlap s
  let pt ← S.vennParts (o.sub 4) overlap t
  let all ← S.spxUnion ps pt
  let m ← all.mapM fun x => do
    let a ← hashHas S.simplexEq x ps
    let b ← hashHas S.simplexEq x pt
    let label ← vennLabel a b
    some (x, label)
  some ⟨amb, m⟩

/-- `insert` of a hash map: the value of a key that is there already is replaced. -/
def hashPut {β γ : Type} (eq : β → β → Option Bool) (x : β) (y : γ) : List (β × γ) → Option (List (β × γ))
  | [] => some [(x, y)]
  | e :: es => do
    let b ← eq x e.1
    if b then some ((e.1, y) :: es) else (hashPut eq x y es).map (e :: ·)

/-- What is left of some simplices when one simplex is taken away. Models geometry/src/simplexes/boolean_opperations.rs:82-90. -/
def OrdOps.leftover (o : Oracle α) (t : Simplex α) (l : List (Simplex α)) : Option (List (Simplex α)) := do
  let parts ← ((o.simplices [] l).zipIdx).mapM fun e => (S.venn (o.sub e.2) e.1 t).map fun c => (c.subsetByLabel .left).spxs
  parts.flatten.foldlM (hashInsert S.simplexEq) []

/-- The loop over the simplices that are taken away. Models geometry/src/simplexes/boolean_opperations.rs:80-91. -/
def OrdOps.leftoverLoop (o : Oracle α) : Nat → List (Simplex α) → List (Simplex α) → Option (List (Simplex α))
  | _, [], l => some l
  | i, t :: ts, l => do
    let l' ← S.leftover (o.sub i) t l
    OrdOps.leftoverLoop o (i + 1) ts l'

/-- The insertion of the simplices with one label. Models geometry/src/simplexes/boolean_opperations.rs:92-94. -/
def OrdOps.putAll (m : List (Simplex α × T)) (l : List (Simplex α)) (label : T) : Option (List (Simplex α × T)) :=
  l.foldlM (fun m s => hashPut S.simplexEq s label m) m

/-- The loop of `subtract_raw`. Models geometry/src/simplexes/boolean_opperations.rs:78-96. -/
def OrdOps.subtractLoop (o : Oracle α) (others : List (Simplex α)) : Nat → List (Simplex α × T) → List (Simplex α × T) → Option (List (Simplex α × T))
  | _, [], m => some m
  | i, e :: es, m => do
    let l ← S.leftoverLoop (o.sub i) 0 (o.simplices [i] others) [e.1]
    let m' ← S.putAll m l e.2
    OrdOps.subtractLoop o others (i + 1) es m'

/-- Models `subtract_raw`, geometry/src/simplexes/boolean_opperations.rs:71-98. -/
def OrdOps.subtractRaw (o : Oracle α) (a : Coll α T) (b : Coll α U) : Option (Coll α T) := do
  let amb ← commonSpace a.ambient b.ambient
  let m ← S.subtractLoop o b.spxs 0 a.simplexes []
  some ⟨amb, m⟩

/-- The loop of `intersection_raw` over pairs. Models geometry/src/simplexes/boolean_opperations.rs:107-116. -/
def OrdOps.meetLoop (o : Oracle α) : Nat → List ((Simplex α × T) × (Simplex α × U)) → List (Simplex α × (T × U)) → Option (List (Simplex α × (T × U)))
  | _, [], m => some m
  | i, e :: es, m => do
    let c ← S.venn (o.sub i) e.1.1 e.2.1
    let m' ← S.putAll m (c.subsetByLabel .middle).spxs (e.1.2, e.2.2)
    OrdOps.meetLoop o (i + 1) es m'

/-- Models `intersection_raw`, geometry/src/simplexes/boolean_opperations.rs:100-119. -/
def OrdOps.intersectionRaw (o : Oracle α) (a : Coll α T) (b : Coll α U) : Option (Coll α (T × U)) := do
  let amb ← commonSpace a.ambient b.ambient
  let m ← S.meetLoop o 0 (a.simplexes.flatMap fun x => b.simplexes.map fun y => (x, y)) []
  some ⟨amb, m⟩

/-- Models `union_raw` of disjoint unions, geometry/src/simplexes/boolean_opperations.rs:127-137. -/
def OrdOps.unionRaw (o : Oracle α) (a b : Coll α Unit) : Option (Coll α Unit) := do
  let amb ← commonSpace a.ambient b.ambient
  let d ← S.subtractRaw o b a
  let set ← (d.spxs ++ a.spxs).foldlM (hashInsert S.simplexEq) []
  some ⟨amb, set.map fun s => (s, ())⟩

end

end Verif.Geometry
