import Verif.Model.Numbers
import Verif.Model.Lattice
import Verif.Model.Sets
import Mathlib.Data.List.Sort

/-!
# Vectors, simplices, hyperplanes and affine subspaces

Models the crate `geometry`: coordinates.rs, ambient_space.rs, affine_subspace.rs, simplexes/mod.rs and simplexes/simplex.rs. A panic
(a failed assertion, also a debug assertion, or an `unwrap`) is `none`.

An `AffineSpace` carries an identifier from a global counter, so two spaces with the same identifier are copies of one space. Here a
space is its affine dimension and its identifier, and spaces are compared as a whole (the comparison in the code looks at the
identifier only and asserts in debug builds that the dimensions agree). Where the code makes a new space the identifier is an argument.
-/

namespace Verif.Geometry

open Verif.Rings

/-- The operations of an ordered field.
Models `OrderedRingStructure + FieldStructure`, rings/src/structure/structure.rs:256-266 (`ring_cmp` is `cmp`). -/
structure OrdOps (α : Type) extends DomainOps α where
  cmp : α → α → Ordering

/-- Models `ring_cmp` of the rationals, rings/src/number/rational.rs:48-52. -/
def ratOrd : OrdOps ℚ := { ratOps with cmp := fun a b => compare a b }

/-- Models `AffineSpace`, geometry/src/ambient_space.rs:7-12. -/
structure Space where
  dim : Nat
  ident : Nat
deriving DecidableEq, Repr

/-- Models `linear_dimension`, geometry/src/ambient_space.rs:61-67. -/
def Space.linDim (sp : Space) : Option Nat := if sp.dim = 0 then none else some (sp.dim - 1)

/-- Models `Vector`, geometry/src/coordinates.rs:8-11. -/
structure Vec (α : Type) where
  space : Space
  coords : List α

section
variable {α : Type}

/-- Models `Vector::new`, geometry/src/coordinates.rs:54-63. -/
def Vec.new (sp : Space) (coords : List α) : Option (Vec α) := do
  let n ← sp.linDim
  assertThat (n == coords.length)
  some ⟨sp, coords⟩

/-- Models `Vector::construct`, geometry/src/coordinates.rs:65-73. -/
def Vec.construct (sp : Space) (f : Nat → Option α) : Option (Vec α) := do
  let n ← sp.linDim
  let coords ← (List.range n).mapM f
  some ⟨sp, coords⟩

/-- Models `coordinate`, geometry/src/coordinates.rs:92-94. -/
def Vec.coordinate (p : Vec α) (i : Nat) : Option α := p.coords[i]?

/-- Models `common_space`, geometry/src/ambient_space.rs:172-184, for the cases where `None` is a panic. -/
def commonSpace (a b : Space) : Option Space := if a = b then some a else none

/-- Models `into_row`, geometry/src/coordinates.rs:100-106. -/
def Vec.intoRow (p : Vec α) : Option (Mat α) := do
  let n ← p.space.linDim
  Mat.construct 1 n fun _ c => p.coordinate c

/-- Models `into_col`, geometry/src/coordinates.rs:108-114. -/
def Vec.intoCol (p : Vec α) : Option (Mat α) := do
  let n ← p.space.linDim
  Mat.construct n 1 fun r _ => p.coordinate r

/-- Models `rows_from_vectors`, geometry/src/ambient_space.rs:73-80. -/
def rowsFromVectors (sp : Space) (vecs : List (Vec α)) : Option (Mat α) := do
  assertThat (vecs.all fun p => decide (sp = p.space))
  let n ← sp.linDim
  Mat.construct vecs.length n fun r c => (vecs[r]?).bind fun p => p.coordinate c

/-- Models `cols_from_vectors`, geometry/src/ambient_space.rs:82-84. -/
def colsFromVectors (sp : Space) (vecs : List (Vec α)) : Option (Mat α) := (rowsFromVectors sp vecs).map Mat.transposed

/-- Models `vectors_from_rows`, geometry/src/ambient_space.rs:117-135. -/
def vectorsFromRows (sp : Space) (m : Mat α) : Option (List (Vec α)) := do
  let n ← sp.linDim
  assertThat (m.cols == n)
  (List.range m.rows).mapM fun r => ((List.range m.cols).mapM fun c => m.get r c).bind (Vec.new sp)

/-- Models `vectors_from_cols`, geometry/src/ambient_space.rs:137-146. -/
def vectorsFromCols (sp : Space) (m : Mat α) : Option (List (Vec α)) := do
  let n ← sp.linDim
  assertThat (m.rows == n)
  vectorsFromRows sp m.transposed

/-- Models `vector_from_row`, geometry/src/ambient_space.rs:148-158. -/
def vectorFromRow (sp : Space) (m : Mat α) : Option (Vec α) := do
  assertThat (m.rows == 1)
  let n ← sp.linDim
  assertThat (m.cols == n)
  let l ← vectorsFromRows sp m
  l.getLast?

/-- Models `vector_from_col`, geometry/src/ambient_space.rs:160-170. -/
def vectorFromCol (sp : Space) (m : Mat α) : Option (Vec α) := do
  let n ← sp.linDim
  assertThat (m.rows == n)
  assertThat (m.cols == 1)
  vectorFromRow sp m.transposed

end

section
variable {α : Type} (S : OrdOps α)

/-- The field as the Bézout domain the matrix algorithms use. -/
abbrev OrdOps.bez : BezoutOps α := S.toDomainOps.fieldEuc.bezout

/-- Models `Vector::zero`, geometry/src/coordinates.rs:75-78. -/
def OrdOps.vecZero (sp : Space) : Option (Vec α) := Vec.construct sp fun _ => some S.zero

/-- Models `origin`, geometry/src/ambient_space.rs:55-59; the inner option is the option of the code. -/
def OrdOps.origin (sp : Space) : Option (Option (Vec α)) := (Vec.construct sp fun _ => some S.zero).map some

/-- Models `==` of vectors, geometry/src/coordinates.rs:26-38. -/
def OrdOps.vecEq (p q : Vec α) : Option Bool :=
  if p.space = q.space then do
    let n ← p.space.linDim
    let l ← (List.range n).mapM fun i => do
      let x ← p.coordinate i
      let y ← q.coordinate i
      some (S.equal x y)
    some (l.all id)
  else some false

/-- Models `-&vector`, geometry/src/coordinates.rs:123-132. -/
def OrdOps.vecNeg (p : Vec α) : Vec α := ⟨p.space, p.coords.map S.neg⟩

/-- Models `&vector + &vector`, geometry/src/coordinates.rs:141-160, and `+=`, 167-180. -/
def OrdOps.vecAdd (p q : Vec α) : Option (Vec α) := do
  let sp ← commonSpace p.space q.space
  let n ← sp.linDim
  let coords ← (List.range n).mapM fun i => do
    let x ← p.coordinate i
    let y ← q.coordinate i
    some (S.add x y)
  some ⟨sp, coords⟩

/-- Models `&vector - &vector`, geometry/src/coordinates.rs:189-191. -/
def OrdOps.vecSub (p q : Vec α) : Option (Vec α) := S.vecAdd p (S.vecNeg q)

/-- Models `scalar_mul`, geometry/src/coordinates.rs:198-207. -/
def OrdOps.vecScalarMul (p : Vec α) (c : α) : Vec α := ⟨p.space, p.coords.map fun x => S.mul x c⟩

/-- The loop of `partial_cmp`. Models geometry/src/simplexes/mod.rs:13-27. -/
def OrdOps.cmpLoop (p q : Vec α) : List Nat → Option Ordering
  | [] => some .eq
  | i :: is => do
    let x ← p.coordinate i
    let y ← q.coordinate i
    match S.cmp x y with
    | .lt => some .lt
    | .eq => OrdOps.cmpLoop p q is
    | .gt => some .gt

/-- Models `cmp` of vectors, geometry/src/simplexes/mod.rs:8-38. -/
def OrdOps.vecCmp (p q : Vec α) : Option Ordering := do
  let sp ← commonSpace p.space q.space
  let n ← sp.linDim
  S.cmpLoop p q (List.range n)

/-- The relation `points.sort_unstable()` sorts by: less or equal. -/
def OrdOps.vecLe (p q : Vec α) : Prop := S.vecCmp p q ≠ some .gt

instance : DecidableRel S.vecLe := fun p q => inferInstanceAs (Decidable (S.vecCmp p q ≠ some .gt))

/-- Models `determinant`, geometry/src/ambient_space.rs:86-90. -/
def OrdOps.determinant (sp : Space) (vecs : List (Vec α)) : Option α := do
  let m ← rowsFromVectors sp vecs
  unwrapMat (S.bez.matDet m)

/-- Models `rank`, geometry/src/ambient_space.rs:92-94. -/
def OrdOps.rank (sp : Space) (vecs : List (Vec α)) : Option Nat := do
  let m ← rowsFromVectors sp vecs
  S.bez.matRank m

/-- Models `are_points_affine_independent`, geometry/src/ambient_space.rs:96-114. -/
def OrdOps.affIndep (sp : Space) (points : List (Vec α)) : Option Bool := do
  assertThat (points.all fun p => decide (sp = p.space))
  match points with
  | [] => some true
  | p :: ps => do
    let vecs ← ps.mapM fun q => S.vecSub q p
    let m ← rowsFromVectors sp vecs
    let k ← S.bez.matRank m
    some (k == vecs.length)

end

/-! ## Simplices -/

/-- Models `Simplex`, geometry/src/simplexes/simplex.rs:6-12. -/
structure Simplex (α : Type) where
  space : Space
  points : List (Vec α)

section
variable {α : Type} (S : OrdOps α)

/-- Models `Simplex::new`, geometry/src/simplexes/simplex.rs:51-67. `sort_unstable` may put equal points in any order; equal points make
the simplex degenerate, so the order does not show in the result. -/
def OrdOps.simplexNew (sp : Space) (points : List (Vec α)) : Option (Except Unit (Simplex α)) := do
  assertThat (points.all fun p => decide (sp = p.space))
  let points := points.insertionSort S.vecLe
  let ok ← S.affIndep sp points
  if ok then some (.ok ⟨sp, points⟩) else some (.error ())

/-- `Simplex::new(..).unwrap()`. -/
def OrdOps.simplexUnwrap (sp : Space) (points : List (Vec α)) : Option (Simplex α) :=
  (S.simplexNew sp points).bind Except.toOption

/-- Models `==` of simplices, geometry/src/simplexes/simplex.rs:27-29. -/
def OrdOps.simplexEq (s t : Simplex α) : Option Bool :=
  if s.space = t.space then
    if s.points.length = t.points.length then
      (s.points.zip t.points).foldlM (fun b pq => if b then S.vecEq pq.1 pq.2 else some false) true
    else some false
  else some false

/-- Models `n`, geometry/src/simplexes/simplex.rs:73-75. -/
def Simplex.n (s : Simplex α) : Nat := s.points.length

/-- The points with the given indices. Models geometry/src/simplexes/simplex.rs:98. -/
def Simplex.pick (s : Simplex α) (idxs : List Nat) : Option (List (Vec α)) := idxs.mapM fun i => s.points[i]?

/-- Models `sub_simplex`, geometry/src/simplexes/simplex.rs:161-167. -/
def OrdOps.subSimplex (s : Simplex α) (idxs : List Nat) : Option (Simplex α) := (s.pick idxs).bind (S.simplexUnwrap s.space)

/-- Models `skeleton`, geometry/src/simplexes/simplex.rs:89-105. `combinations(k)` lists the increasing sequences of `k` indices in
lexicographic order. -/
def OrdOps.skeleton (s : Simplex α) (k : Int) : Option (List (Simplex α)) :=
  if k < 0 then some [] else (Sets.subsets s.points.length k.toNat).mapM (S.subSimplex s)

/-- Models `facets`, geometry/src/simplexes/simplex.rs:123-125. -/
def OrdOps.facets (s : Simplex α) : Option (List (Simplex α)) := S.skeleton s ((s.points.length : Int) - 1)

/-- Models `ridges`, geometry/src/simplexes/simplex.rs:119-121. -/
def OrdOps.ridges (s : Simplex α) : Option (List (Simplex α)) := S.skeleton s ((s.points.length : Int) - 2)

/-- Models `facet`, geometry/src/simplexes/simplex.rs:127-136. -/
def OrdOps.facet (s : Simplex α) (k : Nat) : Option (Simplex α) := do
  assertThat (decide (k ≤ s.points.length))
  assertThat (decide (k < s.points.length))
  S.simplexUnwrap s.space (s.points.eraseIdx k)

/-- Models `sub_simplices`, geometry/src/simplexes/simplex.rs:138-145. `powerset` lists the subsets by size. -/
def OrdOps.subSimplices (s : Simplex α) : Option (List (Simplex α)) :=
  ((List.range (s.points.length + 1)).flatMap fun k => Sets.subsets s.points.length k).mapM (S.subSimplex s)

/-- Models `sub_simplices_not_null`, geometry/src/simplexes/simplex.rs:147-152. -/
def OrdOps.subSimplicesNotNull (s : Simplex α) : Option (List (Simplex α)) :=
  (S.subSimplices s).map fun l => l.filter fun t => t.n ≠ 0

/-- Models `proper_sub_simplices_not_null`, geometry/src/simplexes/simplex.rs:154-159. -/
def OrdOps.properSubSimplicesNotNull (s : Simplex α) : Option (List (Simplex α)) :=
  (S.subSimplices s).map fun l => l.filter fun t => t.n ≠ 0 ∧ t.n ≠ s.n

end

/-- Models `OrientationSide`, geometry/src/simplexes/simplex.rs:189-193. -/
inductive Side
  | positive
  | neutral
  | negative
deriving DecidableEq, Repr

/-- Models `OrientedSimplex`, geometry/src/simplexes/simplex.rs:221-227: the orientation is `flip` and `positive_point`. -/
structure OSimplex (α : Type) where
  simplex : Simplex α
  orientation : Option (Bool × Vec α)

section
variable {α : Type} (S : OrdOps α)

/-- The determinant in `classify_point_quantitatively`. Models geometry/src/simplexes/simplex.rs:345-350. -/
def OrdOps.classifyDet (o : OSimplex α) (d : Nat) (point : Vec α) : Option α := do
  let root ← o.simplex.points[0]?
  let vecs ← (List.range' 1 (d - 1)).mapM fun i => (o.simplex.points[i]?).bind fun p => S.vecSub p root
  let last ← S.vecSub point root
  S.determinant o.simplex.space (vecs ++ [last])

/-- Models `classify_point_quantitatively`, geometry/src/simplexes/simplex.rs:334-358. -/
def OrdOps.classifyQuant (o : OSimplex α) (point : Vec α) : Option α :=
  match o.orientation with
  | none => some S.zero
  | some (flip, _) => do
    let d ← o.simplex.space.linDim
    assertThat (d ≠ 0)
    let det ← S.classifyDet o d point
    some (if flip then S.neg det else det)

/-- The side a value stands for. Models geometry/src/simplexes/simplex.rs:364-368. -/
def OrdOps.sideOf (x : α) : Side :=
  match S.cmp x S.zero with
  | .lt => .negative
  | .eq => .neutral
  | .gt => .positive

/-- Models `classify_point`, geometry/src/simplexes/simplex.rs:360-369. -/
def OrdOps.classify (o : OSimplex α) (point : Vec α) : Option Side := (S.classifyQuant o point).map S.sideOf

/-- The orientation is chosen by the reference point. Models geometry/src/simplexes/simplex.rs:260-275. -/
def OrdOps.orientBy (s : Simplex α) (ref : Vec α) : Option (Except Unit (OSimplex α)) := do
  let side ← S.classify ⟨s, some (false, ref)⟩ ref
  match side with
  | .positive => some (.ok ⟨s, some (false, ref)⟩)
  | .neutral => some (.error ())
  | .negative => some (.ok ⟨s, some (true, ref)⟩)

/-- Models `new_with_positive_point`, geometry/src/simplexes/simplex.rs:243-277. -/
def OrdOps.newPositive (sp : Space) (points : List (Vec α)) (ref : Vec α) : Option (Except Unit (OSimplex α)) := do
  assertThat (decide (ref.space = sp))
  let n ← sp.linDim
  if points.length ≠ n then some (.error ())
  else do
    let s ← S.simplexNew sp points
    match s with
    | .error e => some (.error e)
    | .ok s => if points.length = 0 then some (.ok ⟨s, none⟩) else S.orientBy s ref

/-- Models `negative_point`, geometry/src/simplexes/simplex.rs:293-299; the inner option is the option of the code. -/
def OrdOps.negativePoint (o : OSimplex α) : Option (Option (Vec α)) :=
  match o.orientation with
  | none => some none
  | some (_, pos) => do
    let p ← o.simplex.points[0]?
    let pp ← S.vecAdd p p
    let r ← S.vecSub pp pos
    some (some r)

/-- Models `flip`, geometry/src/simplexes/simplex.rs:309-332, with its debug assertion. -/
def OrdOps.flip (o : OSimplex α) : Option (OSimplex α) := do
  let neg ← S.negativePoint o
  match o.orientation, neg with
  | none, _ => some o
  | some _, none => none
  | some (flip, _), some neg => do
    let o' : OSimplex α := ⟨o.simplex, some (!flip, neg)⟩
    let side ← S.classify o' neg
    assertThat (decide (side = .positive))
    some o'

/-- Models `new_with_negative_point`, geometry/src/simplexes/simplex.rs:279-287. -/
def OrdOps.newNegative (sp : Space) (points : List (Vec α)) (ref : Vec α) : Option (Except Unit (OSimplex α)) := do
  let r ← S.newPositive sp points ref
  match r with
  | .error e => some (.error e)
  | .ok o => (S.flip o).map .ok

/-- Models `oriented_facet`, geometry/src/simplexes/simplex.rs:169-180. -/
def OrdOps.orientedFacet (s : Simplex α) (k : Nat) : Option (OSimplex α) := do
  let other ← s.points[k]?
  let r ← S.newPositive s.space (s.points.eraseIdx k) other
  r.toOption

/-- Models `oriented_facets`, geometry/src/simplexes/simplex.rs:182-185. -/
def OrdOps.orientedFacets (s : Simplex α) : Option (List (OSimplex α)) := do
  assertThat (s.space.dim == s.n)
  (List.range s.n).mapM (S.orientedFacet s)

/-- Models `OrientedHyperplaneIntersectLineSegmentResult`, geometry/src/simplexes/simplex.rs:404-417: the sides of the two end points, and the
point of intersection when they are strictly on different sides. -/
structure LineResult (α : Type) where
  first : Side
  second : Side
  intersection : Option (Vec α)

/-- The point of intersection. Models geometry/src/simplexes/simplex.rs:445-460 and 463-478, with the debug assertions. -/
def OrdOps.intersectPoint (o : OSimplex α) (a b : Vec α) (aVal bVal : α) (sa sb : Side) : Option (Vec α) := do
  let t ← unwrapDiv (S.div aVal (S.add aVal (S.neg bVal)))
  let ca ← S.classify o a
  assertThat (decide (ca = sa))
  let cb ← S.classify o b
  assertThat (decide (cb = sb))
  let d ← S.vecSub b a
  S.vecAdd a (S.vecScalarMul d t)

/-- Models `intersect_line`, geometry/src/simplexes/simplex.rs:430-503. -/
def OrdOps.intersectLine (o : OSimplex α) (a b : Vec α) : Option (LineResult α) := do
  let aVal ← S.classifyQuant o a
  let bVal ← S.classifyQuant o b
  match S.sideOf aVal, S.sideOf bVal with
  | .negative, .positive => (S.intersectPoint o a b aVal bVal .negative .positive).map fun p => ⟨.negative, .positive, some p⟩
  | .positive, .negative => (S.intersectPoint o a b aVal bVal .positive .negative).map fun p => ⟨.positive, .negative, some p⟩
  | sa, sb => some ⟨sa, sb, none⟩

end

/-! ## Embedded affine subspaces -/

/-- Models `EmbeddedAffineSubspace`, geometry/src/affine_subspace.rs:8-24. -/
structure EmbSub (α : Type) where
  ambient : Space
  embedded : Space
  points : List (Vec α)

section
variable {α : Type} (S : OrdOps α)

/-- The coordinates of the point number `i` in the new space: `0, e_0, e_1, ..`.
Models geometry/src/affine_subspace.rs:49-57. -/
def OrdOps.basisCoord (i j : Nat) : α := if i = 0 then S.zero else if i = j + 1 then S.one else S.zero

/-- Models `new_affine_span`, geometry/src/affine_subspace.rs:32-71. The identifier of the new space is `ident`. -/
def OrdOps.spanNew (ident : Nat) (amb : Space) (points : List (Vec α)) : Option (Except Unit (EmbSub α × List (Vec α))) := do
  assertThat (points.all fun p => decide (p.space = amb))
  let ok ← S.affIndep amb points
  if !ok then some (.error ())
  else do
    let emb : Space := ⟨points.length, ident⟩
    let pts ← (List.range points.length).mapM fun i => Vec.construct emb fun j => some (S.basisCoord i j)
    some (.ok (⟨amb, emb, points⟩, pts))

/-- Models `new_empty`, geometry/src/affine_subspace.rs:73-75. -/
def OrdOps.emptySub (ident : Nat) (amb : Space) : Option (EmbSub α) := do
  let r ← S.spanNew ident amb []
  r.toOption.map Prod.fst

/-- Models `EmbeddedAffineSubspace::new`, geometry/src/affine_subspace.rs:81-89. -/
def OrdOps.subNew (ident : Nat) (amb : Space) (root : Vec α) (span : List (Vec α)) : Option (Except Unit (EmbSub α × List (Vec α))) := do
  let pts ← span.mapM fun p => S.vecAdd root p
  S.spanNew ident amb (root :: pts)

/-- Models `new_affine_span_linearly_dependent`, geometry/src/affine_subspace.rs:91-115. -/
def OrdOps.affineSpanDependent (ident : Nat) (amb : Space) (points : List (Vec α)) : Option (EmbSub α) :=
  match points with
  | [] => S.emptySub ident amb
  | root :: points => do
    let dim ← amb.linDim
    let span ← points.mapM fun p => S.vecSub p root
    let mat ← Mat.construct dim span.length fun r c => (span[c]?).bind fun p => p.coordinate r
    let h ← S.bez.rowHermite mat
    let span' ← h.pivs.mapM fun i => span[i]?
    let r ← S.subNew ident amb root span'
    r.toOption.map Prod.fst

/-- Models `get_root_and_span`, geometry/src/affine_subspace.rs:197-202; the inner option is the option of the code. -/
def OrdOps.rootAndSpan (e : EmbSub α) : Option (Option (Vec α × List (Vec α))) :=
  match e.points with
  | [] => some none
  | root :: pts => (pts.mapM fun p => S.vecSub p root).map fun span => some (root, span)

/-- The loop of `embed_point`. Models geometry/src/affine_subspace.rs:211-215. -/
def OrdOps.embedLoop (root : Vec α) (span : List (Vec α)) (pt : Vec α) : Option (Vec α) :=
  (span.zipIdx).foldlM (fun total (e : Vec α × Nat) => (pt.coordinate e.2).bind fun c => S.vecAdd total (S.vecScalarMul e.1 c)) root

/-- Models `embed_point`, geometry/src/affine_subspace.rs:208-216. -/
def OrdOps.embedPoint (e : EmbSub α) (pt : Vec α) : Option (Vec α) := do
  assertThat (decide (pt.space = e.embedded))
  let rs ← S.rootAndSpan e
  let rs ← rs
  S.embedLoop rs.1 rs.2 pt

/-- Models `embed_simplex`, geometry/src/affine_subspace.rs:218-227. -/
def OrdOps.embedSimplex (e : EmbSub α) (s : Simplex α) : Option (Simplex α) := do
  let pts ← s.points.mapM (S.embedPoint e)
  S.simplexUnwrap e.ambient pts

/-- Solving for the coordinates. Models geometry/src/affine_subspace.rs:233-242. -/
def OrdOps.unembedSolve (e : EmbSub α) (root : Vec α) (span : List (Vec α)) (pt : Vec α) : Option (Option (Vec α)) := do
  let d ← S.vecSub pt root
  let y ← d.intoCol
  let basis ← colsFromVectors e.ambient span
  let x ← S.bez.colSolve basis y
  match x with
  | none => some none
  | some x => (vectorFromCol e.embedded x).map some

/-- Models `unembed_point`, geometry/src/affine_subspace.rs:229-245; the inner option is the option of the code. -/
def OrdOps.unembedPoint (e : EmbSub α) (pt : Vec α) : Option (Option (Vec α)) := do
  assertThat (decide (pt.space = e.ambient))
  let rs ← S.rootAndSpan e
  match rs with
  | none => some none
  | some (root, span) => S.unembedSolve e root span pt

/-- The loop of `unembed_simplex`. Models geometry/src/affine_subspace.rs:248-258. -/
def OrdOps.unembedLoop (e : EmbSub α) : List (Vec α) → Option (Option (List (Vec α)))
  | [] => some (some [])
  | p :: ps => do
    let q ← S.unembedPoint e p
    match q with
    | none => some none
    | some q => (OrdOps.unembedLoop e ps).map fun r => r.map (q :: ·)

/-- Models `unembed_simplex`, geometry/src/affine_subspace.rs:247-260; the inner option is the option of the code. -/
def OrdOps.unembedSimplex (e : EmbSub α) (s : Simplex α) : Option (Option (Simplex α)) := do
  let pts ← S.unembedLoop e s.points
  match pts with
  | none => some none
  | some pts => (S.simplexUnwrap e.embedded pts).map some

/-- Models `extend_dimension_by_point_unsafe`, geometry/src/affine_subspace.rs:142-195, with its debug assertions. -/
def OrdOps.extendByPoint (ident : Nat) (e : EmbSub α) (pt : Vec α) : Option (EmbSub α × EmbSub α × Vec α) := do
  assertThat (decide (e.ambient = pt.space))
  let u ← S.unembedPoint e pt
  assertThat u.isNone
  let n := e.embedded.dim
  let ext : Space := ⟨n + 1, ident⟩
  let pts ← (List.range n).mapM fun k => Vec.construct ext fun i => some (S.basisCoord k i)
  let last ← Vec.construct ext fun i => some (if i + 1 = n then S.one else S.zero)
  some (⟨ext, e.embedded, pts⟩, ⟨e.ambient, ext, e.points ++ [pt]⟩, last)

/-- `root + e_k`. Models geometry/src/affine_subspace.rs:306-313. -/
def OrdOps.rootPlusUnit (amb : Space) (root : Vec α) (k : Nat) : Option (Vec α) :=
  Vec.construct amb fun l => (root.coordinate l).map fun x => S.add x (if l = k then S.one else S.zero)

/-- The hyperplane number `i`. Models geometry/src/affine_subspace.rs:294-333. -/
def OrdOps.hyperplaneOf (amb : Space) (root : Vec α) (span : List (Vec α)) (ext : List Nat) (i : Nat) : Option (OSimplex α) := do
  let sp ← span.mapM fun s => S.vecAdd root s
  let others ← (ext.eraseIdx i).mapM (S.rootPlusUnit amb root)
  let k ← ext[i]?
  let ref ← S.rootPlusUnit amb root k
  let r ← S.newPositive amb (root :: sp ++ others) ref
  r.toOption

/-- The entries of the matrix of `as_hyperplane_intersection`. Models geometry/src/affine_subspace.rs:271-281. -/
def OrdOps.extendEntry (span : List (Vec α)) (r c : Nat) : Option α :=
  if c < span.length then (span[c]?).bind fun p => p.coordinate r else some (if r = c - span.length then S.one else S.zero)

/-- The unit vectors that extend the span to a basis. Models geometry/src/affine_subspace.rs:267-290, with the debug assertions. -/
def OrdOps.extensionUnits (dim : Nat) (span : List (Vec α)) : Option (List Nat) := do
  let mat ← Mat.construct dim (span.length + dim) (S.extendEntry span)
  let h ← S.bez.rowHermite mat
  assertThat (h.pivs.length == dim)
  assertThat ((List.range span.length).all fun i => h.pivs[i]? == some i)
  (List.range' span.length (dim - span.length)).mapM fun i => (h.pivs[i]?).bind fun p => if span.length ≤ p then some (p - span.length) else none

/-- Models `as_hyperplane_intersection`, geometry/src/affine_subspace.rs:262-341; the inner option is the option of the code. -/
def OrdOps.asHyperplanes (e : EmbSub α) : Option (Option (List (OSimplex α))) := do
  let rs ← S.rootAndSpan e
  match rs with
  | none => some none
  | some (root, span) => do
    let dim ← e.ambient.linDim
    let ext ← S.extensionUnits dim span
    let hs ← (List.range ext.length).mapM (S.hyperplaneOf e.ambient root span ext)
    assertThat (decide (span.length ≤ dim) && hs.length == dim - span.length)
    some (some hs)

end

end Verif.Geometry
