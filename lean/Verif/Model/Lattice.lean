import Verif.Model.Matrix

/-!
# Linear and affine lattices, kernels and linear systems

Models rings/src/linear/subspace.rs and the parts of rings/src/linear/matrix.rs that use it (spans, kernels, `row_solve`, `col_solve`).
A linear lattice is a set of `rows × cols` matrices, stored as a matrix whose rows are the flattened basis elements. `none` is a panic;
debug assertions are modelled as panics. The structures (`LinearLatticeStructure`) only carry the ring `S`.
-/

namespace Verif.Rings

/-- Models `LinearLattice`, rings/src/linear/subspace.rs:81-88. -/
structure LinLat (α : Type) where
  metamatrix : Mat α
  rows : Nat
  cols : Nat

/-- Models `AffineLatticeElements`, rings/src/linear/subspace.rs:619-625. -/
inductive AffElems (α : Type)
  | empty
  | nonEmpty (offset : Mat α) (linlat : LinLat α)

/-- Models `AffineLattice`, rings/src/linear/subspace.rs:628-632. -/
structure AffLat (α : Type) where
  rows : Nat
  cols : Nat
  elems : AffElems α

/-- Models `rc_to_idx`, rings/src/linear/subspace.rs:101-106. -/
def latIdx (rows cols r c : Nat) : Option Nat := if rows ≤ r ∨ cols ≤ c then none else some (c + r * cols)

/-- Models `idx_to_rc`, rings/src/linear/subspace.rs:109-114. -/
def latRc (rows cols idx : Nat) : Option (Nat × Nat) := if rows * cols ≤ idx then none else some (idx / cols, idx % cols)

section Generic
variable {α : Type}

/-- The closure of `mats_to_rows`. Models rings/src/linear/subspace.rs:126-128. -/
def matsToRowsEntry (rows cols : Nat) (mats : List (Mat α)) (r c : Nat) : Option α :=
  (latRc rows cols c).bind fun rc => (mats[r]?).bind fun mat => mat.get rc.1 rc.2

/-- Models `mats_to_rows`, rings/src/linear/subspace.rs:116-129. -/
def matsToRows (rows cols : Nat) (mats : List (Mat α)) : Option (Mat α) :=
  if mats.all fun mat => mat.rows == rows && mat.cols == cols then
    Mat.construct mats.length (rows * cols) (matsToRowsEntry rows cols mats)
  else none

/-- Models `rank`, rings/src/linear/subspace.rs:213-215. -/
def LinLat.rank (lat : LinLat α) : Nat := lat.metamatrix.rows

/-- Models `basis_row`, rings/src/linear/subspace.rs:225-228. -/
def LinLat.basisRow (lat : LinLat α) (n : Nat) : Option (Mat α) := lat.metamatrix.submatrix [n] (List.range lat.metamatrix.cols)

/-- Models `basis_matrix_element`, rings/src/linear/subspace.rs:248-258. -/
def LinLat.basisElement (lat : LinLat α) (n r c : Nat) : Option α :=
  (latIdx lat.rows lat.cols r c).bind fun idx => lat.metamatrix.get n idx

/-- Models `basis_matrix`, rings/src/linear/subspace.rs:230-240. -/
def LinLat.basisMatrix (lat : LinLat α) (n : Nat) : Option (Mat α) :=
  if lat.rank ≤ n then none else Mat.construct lat.rows lat.cols (lat.basisElement n)

/-- Models `basis_matrices`, rings/src/linear/subspace.rs:242-246. -/
def LinLat.basisMatrices (lat : LinLat α) : Option (List (Mat α)) := (List.range lat.rank).mapM lat.basisMatrix

/-- Models `transpose`, rings/src/linear/subspace.rs:178-191. -/
def LinLat.transpose (lat : LinLat α) : Option (LinLat α) := do
  let mats ← lat.basisMatrices
  let mm ← matsToRows lat.cols lat.rows (mats.map Mat.transposed)
  some ⟨mm, lat.cols, lat.rows⟩

/-- Models `take_nonzero_point`, rings/src/linear/subspace.rs:217-223. -/
def LinLat.takeNonzeroPoint (lat : LinLat α) : Option (Option (Mat α)) :=
  if lat.rank = 0 then some none else (lat.basisMatrix 0).map some

end Generic

section Linear
variable {α : Type} (S : BezoutOps α)

/-- Models `LinearLatticeStructure::check_invariants`, rings/src/linear/subspace.rs:147-157. -/
def BezoutOps.latOk (lat : LinLat α) : Option Bool :=
  if lat.rows * lat.cols ≠ lat.metamatrix.cols then some false
  else (S.matRank lat.metamatrix).map fun k => k == lat.metamatrix.rows

/-- The debug assertion `check_invariants(&lattice).is_ok()`. -/
def BezoutOps.latChecked (lat : LinLat α) : Option (LinLat α) := do
  let ok ← S.latOk lat
  assertThat ok
  some lat

/-- Models `from_span`, rings/src/linear/subspace.rs:159-176. -/
def BezoutOps.latFromSpan (rows cols : Nat) (mats : List (Mat α)) : Option (LinLat α) := do
  let spanning ← matsToRows rows cols mats
  let r ← S.rowHermite spanning
  let mm ← r.h.submatrix (List.range r.pivs.length) (List.range (rows * cols))
  S.latChecked ⟨mm, rows, cols⟩

/-- Models `from_basis`, rings/src/linear/subspace.rs:193-207. -/
def BezoutOps.latFromBasis (rows cols : Nat) (mats : List (Mat α)) : Option (LinLat α) := do
  let mm ← matsToRows rows cols mats
  S.latChecked ⟨mm, rows, cols⟩

/-- Models `zero`, rings/src/linear/subspace.rs:209-211. -/
def BezoutOps.latZero (rows cols : Nat) : Option (LinLat α) := S.latFromBasis rows cols []

/-- Models `row_kernel`, rings/src/linear/matrix.rs:785-795. -/
def BezoutOps.rowKernel (a : Mat α) : Option (LinLat α) := do
  let r ← S.rowHermite a
  let rows ← (rangeFrom r.pivs.length r.u.rows).mapM fun i => r.u.submatrix [i] (List.range r.u.cols)
  S.latFromBasis 1 r.u.cols rows

/-- Models `col_kernel`, rings/src/linear/matrix.rs:797-807. -/
def BezoutOps.colKernel (a : Mat α) : Option (LinLat α) := do
  let r ← S.colHermite a
  let cols ← (rangeFrom r.pivs.length r.u.cols).mapM fun j => r.u.submatrix (List.range r.u.rows) [j]
  S.latFromBasis r.u.rows 1 cols

/-- The body of the loop that sums `taps[i] * basis[i]`. Models rings/src/linear/matrix.rs:850-859. -/
def BezoutOps.solveStep (ker : LinLat α) (taps : List α) (ext : Mat α) (n : Nat) : Option (Mat α) := do
  let b ← ker.basisMatrix n
  let t ← taps[n]?
  let bt ← S.matMulScalar b t
  unwrapMat (S.matAdd ext bt)

/-- The branch of `col_solve` with a solution. Models rings/src/linear/matrix.rs:846-864. -/
def BezoutOps.solveFound (m y : Mat α) (ker : LinLat α) (taps : List α) : Option (Mat α) := do
  let z ← S.matZero (m.cols + 1) 1
  let ext ← (List.range ker.rank).foldlM (S.solveStep ker taps) z
  let e0 ← ext.get 0 0
  assertThat (S.equal e0 S.one)
  let tail ← ext.submatrix (rangeFrom 1 ext.rows) [0]
  let x ← S.matNeg tail
  let mx ← S.matMulUnwrap m x
  let ok ← S.matEqual mx y
  assertThat ok
  some x

/-- The debug assertion `if is_unit(g) { g == 1 }`. Models rings/src/linear/matrix.rs:841-843. -/
def BezoutOps.unitIsOne (g : α) : Option Unit := do
  let u ← S.isUnit g
  assertThat (!u || S.equal g S.one)

/-- Models rings/src/linear/matrix.rs:844-868. -/
def BezoutOps.solveBranch (m y : Mat α) (ker : LinLat α) (g : α) (taps : List α) : Option (Option (Mat α)) :=
  if S.equal g S.one then (S.solveFound m y ker taps).map some else some none

/-- Models `col_solve`, rings/src/linear/matrix.rs:820-867. -/
def BezoutOps.colSolve (m y : Mat α) : Option (Option (Mat α)) := do
  assertThat (y.rows == m.rows)
  assertThat (y.cols == 1)
  let ext ← Mat.joinCols m.rows [y, m]
  let ker ← S.colKernel ext
  let firsts ← (List.range ker.rank).mapM fun n => ker.basisElement n 0 0
  let gt ← S.xgcdList firsts
  S.unitIsOne gt.1
  S.solveBranch m y ker gt.1 gt.2

/-- Models `row_solve`, rings/src/linear/matrix.rs:809-818. -/
def BezoutOps.rowSolve (m y : Mat α) : Option (Option (Mat α)) :=
  (S.colSolve m.transposed y.transposed).map fun x => x.map Mat.transposed

/-- Models `contains_row`, rings/src/linear/subspace.rs:260-269. -/
def BezoutOps.containsRow (lat : LinLat α) (row : Mat α) : Option Bool := (S.rowSolve lat.metamatrix row).map Option.isSome

/-- Models `contains_point`, rings/src/linear/subspace.rs:271-277. -/
def BezoutOps.latContains (lat : LinLat α) (mat : Mat α) : Option Bool := do
  let row ← matsToRows lat.rows lat.cols [mat]
  S.containsRow lat row

/-- One test of the loop of `contains_sublattice`. Models rings/src/linear/subspace.rs:287. -/
def BezoutOps.containsBasisRow (lat sub : LinLat α) (n : Nat) : Option Bool := (sub.basisRow n).bind (S.containsRow lat)

/-- Models `contains_sublattice`, rings/src/linear/subspace.rs:280-292. -/
def BezoutOps.latContainsSub (lat sub : LinLat α) : Option Bool := do
  assertThat (lat.metamatrix.cols == sub.metamatrix.cols)
  (List.range sub.rank).allM fun n => S.containsBasisRow lat sub n

/-- `a && b` with a second operand that may panic. -/
def andM (a : Option Bool) (b : Option Bool) : Option Bool :=
  match a with
  | none => none
  | some false => some false
  | some true => b

/-- Models `equal`, rings/src/linear/subspace.rs:294-296. -/
def BezoutOps.latEqual (a b : LinLat α) : Option Bool := andM (S.latContainsSub a b) (S.latContainsSub b a)

/-- Row `r` of the joined matrix as a matrix. Models rings/src/linear/subspace.rs:326-331. -/
def metaRowMatrix (mm : Mat α) (rows cols r : Nat) : Option (Mat α) :=
  Mat.construct rows cols fun mr mc => (latIdx rows cols mr mc).bind fun idx => mm.get r idx

/-- Models `extension_basis`, rings/src/linear/subspace.rs:299-336. -/
def BezoutOps.extensionBasis (a b : LinLat α) : Option (List (Mat α)) := do
  assertThat (a.rows == b.rows)
  assertThat (b.cols == b.cols)
  let sub ← S.latContainsSub b a
  assertThat sub
  let mm ← Mat.joinRows (a.rows * b.cols) [a.metamatrix, b.metamatrix]
  let r ← S.colHermite mm
  let ext ← (r.pivs.filter fun p => decide (a.rank ≤ p)).mapM (metaRowMatrix mm a.rows b.cols)
  assertThat (a.rank + ext.length == b.rank)
  some ext

/-- Models `metamatrix_row_sum`, rings/src/linear/subspace.rs:9-21. -/
def BezoutOps.metaRowSum (cols : Nat) (metas : List (Mat α)) : Option (Mat α) := do
  assertThat (metas.all fun m => m.cols == cols)
  let joined ← Mat.joinRows cols metas
  let r ← S.rowHermite joined
  r.h.submatrix (List.range r.pivs.length) (List.range cols)

/-- Models `sum`, rings/src/linear/subspace.rs:338-357. -/
def BezoutOps.latSum (rows cols : Nat) (lats : List (LinLat α)) : Option (LinLat α) := do
  assertThat (lats.all fun l => l.rows == rows && l.cols == cols)
  let mm ← S.metaRowSum (rows * cols) (lats.map LinLat.metamatrix)
  some ⟨mm, rows, cols⟩

/-- Models `sum_pair`, rings/src/linear/subspace.rs:359-367. -/
def BezoutOps.latSumPair (rows cols : Nat) (a b : LinLat α) : Option (LinLat α) := S.latSum rows cols [a, b]

/-- The closure that maps a kernel vector to a vector of the intersection. Models rings/src/linear/subspace.rs:68-77. -/
def BezoutOps.intersectRow (m1 : Mat α) (ker : LinLat α) (i : Nat) : Option (Mat α) := do
  let b ← ker.basisMatrix i
  let x ← b.submatrix [0] (List.range m1.rows)
  S.matMulUnwrap x m1

/-- The assertion that a metamatrix has linearly independent rows. Models rings/src/linear/subspace.rs:33-41. -/
def BezoutOps.assertIndep (m : Mat α) : Option Unit := (S.matRank m).bind fun k => assertThat (k == m.rows)

/-- The intersection after the swap. Models rings/src/linear/subspace.rs:45-79. -/
def BezoutOps.metaIntersectOrdered (cols : Nat) (m1 m2 : Mat α) : Option (Mat α) := do
  let neg ← S.matNeg m2
  let joined ← Mat.joinRows cols [m1, neg]
  let ker ← S.rowKernel joined
  let rows ← (List.range ker.rank).mapM (S.intersectRow m1 ker)
  Mat.joinRows cols rows

/-- Models `metamatrix_row_intersection`, rings/src/linear/subspace.rs:24-78. -/
def BezoutOps.metaRowIntersection (cols : Nat) (m1 m2 : Mat α) : Option (Mat α) := do
  assertThat (m1.cols == cols)
  assertThat (m2.cols == cols)
  S.assertIndep m1
  S.assertIndep m2
  if m1.rows > m2.rows then S.metaIntersectOrdered cols m2 m1 else S.metaIntersectOrdered cols m1 m2

/-- Models `intersect_pair`, rings/src/linear/subspace.rs:392-415. -/
def BezoutOps.latIntersectPair (rows cols : Nat) (a b : LinLat α) : Option (LinLat α) := do
  assertThat (a.rows == rows)
  assertThat (a.cols == cols)
  assertThat (b.rows == rows)
  assertThat (b.cols == cols)
  let mm ← S.metaRowIntersection (rows * cols) a.metamatrix b.metamatrix
  S.latChecked ⟨mm, rows, cols⟩

/-- Models `intersect`, rings/src/linear/subspace.rs:369-390. -/
def BezoutOps.latIntersect (rows cols : Nat) (lats : List (LinLat α)) : Option (LinLat α) :=
  match lats with
  | [] => (S.matIdent (rows * cols)).map fun mm => ⟨mm, rows, cols⟩
  | [a] => some a
  | a :: b :: rest => (S.latIntersectPair rows cols a b).bind fun l => rest.foldlM (S.latIntersectPair rows cols) l

/-- The unit matrix `v`. Models rings/src/linear/subspace.rs:427-433. -/
def SemiRingOps.unitMat {α : Type} (S : SemiRingOps α) (rows cols i j : Nat) : Option (Mat α) :=
  Mat.construct rows cols fun r c => some (if i = r ∧ j = c then S.one else S.zero)

/-- The state of the first loop of `as_hyperplane_intersection`: the extended lattice and the vectors that were added. -/
structure HyperState (α : Type) where
  lat : LinLat α
  basis : List (Mat α)

/-- The end of the loop body. Models rings/src/linear/subspace.rs:441-449. -/
def hyperKeep (st : HyperState α) (new : LinLat α) (v : Mat α) : Option (HyperState α) := do
  assertThat (new.rank == st.lat.rank || new.rank == st.lat.rank + 1)
  if new.rank = st.lat.rank + 1 then some ⟨new, st.basis ++ [v]⟩ else some st

/-- The loop body. Models rings/src/linear/subspace.rs:426-450. -/
def BezoutOps.hyperStep (rows cols : Nat) (st : HyperState α) (ij : Nat × Nat) : Option (HyperState α) := do
  let v ← S.unitMat rows cols ij.1 ij.2
  let one ← S.latFromBasis rows cols [v]
  let new ← S.latSumPair rows cols st.lat one
  hyperKeep st new v

/-- The pairs `(i, j)` of the two nested loops. Models rings/src/linear/subspace.rs:424-425. -/
def indexPairs (rows cols : Nat) : List (Nat × Nat) := (List.range rows).flatMap fun i => (List.range cols).map fun j => (i, j)

/-- The hyperplane that omits element `i`. Models rings/src/linear/subspace.rs:456-472. -/
def BezoutOps.hyperplane (lat : LinLat α) (basis : List (Mat α)) (i : Nat) : Option (LinLat α) := do
  let other ← S.latFromBasis lat.rows lat.cols (basis.eraseIdx i)
  S.latSumPair lat.rows lat.cols lat other

/-- Models `as_hyperplane_intersection`, rings/src/linear/subspace.rs:417-474. -/
def BezoutOps.hyperplanes (lat : LinLat α) : Option (List (LinLat α)) := do
  let st ← (indexPairs lat.rows lat.cols).foldlM (S.hyperStep lat.rows lat.cols) ⟨lat, []⟩
  assertThat (st.lat.rank == lat.rows * lat.cols)
  (List.range st.basis.length).mapM (S.hyperplane lat st.basis)

/-- Models `row_span`, rings/src/linear/matrix.rs:725-733. -/
def BezoutOps.rowSpan (a : Mat α) : Option (LinLat α) := do
  let rows ← (List.range a.rows).mapM fun r => a.submatrix [r] (List.range a.cols)
  S.latFromSpan 1 a.cols rows

/-- Models `col_span`, rings/src/linear/matrix.rs:735-743. -/
def BezoutOps.colSpan (a : Mat α) : Option (LinLat α) := do
  let cols ← (List.range a.cols).mapM fun c => a.submatrix (List.range a.rows) [c]
  S.latFromSpan a.rows 1 cols

end Linear

section Affine
variable {α : Type} (S : BezoutOps α)

/-- Models `AffineLatticeStructure::check_invariants`, rings/src/linear/subspace.rs:664-690. -/
def BezoutOps.affOk (lat : AffLat α) : Option Bool :=
  match lat.elems with
  | .empty => some true
  | .nonEmpty offset linlat => (S.latOk linlat).map fun ok =>
      ok && offset.rows == lat.rows && offset.cols == lat.cols && linlat.rows == lat.rows && linlat.cols == lat.cols

/-- Models `rank`, rings/src/linear/subspace.rs:700-709. -/
def AffLat.rank (lat : AffLat α) : Option Nat :=
  match lat.elems with
  | .empty => none
  | .nonEmpty _ linlat => some linlat.rank

/-- Models `empty`, rings/src/linear/subspace.rs:711-717. -/
def AffLat.mkEmpty (rows cols : Nat) : AffLat α := ⟨rows, cols, .empty⟩

/-- Models `to_offset_and_linear_lattice`, rings/src/linear/subspace.rs:719-727. -/
def AffLat.toOffset (lat : AffLat α) : Option (Mat α × LinLat α) :=
  match lat.elems with
  | .empty => none
  | .nonEmpty offset linlat => some (offset, linlat)

/-- Models `take_point`, rings/src/linear/subspace.rs:729-734. -/
def AffLat.takePoint (lat : AffLat α) : Option (Mat α) := lat.toOffset.map (·.1)

/-- Models `from_offset_and_linear_lattice`, rings/src/linear/subspace.rs:736-754. -/
def BezoutOps.affFrom (rows cols : Nat) (offset : Mat α) (linlat : LinLat α) : Option (AffLat α) := do
  assertThat (offset.rows == rows)
  assertThat (offset.cols == cols)
  assertThat (linlat.rows == rows)
  assertThat (linlat.cols == cols)
  let ok ← S.affOk ⟨rows, cols, .nonEmpty offset linlat⟩
  assertThat ok
  some ⟨rows, cols, .nonEmpty offset linlat⟩

/-- Models `contains_point`, rings/src/linear/subspace.rs:756-773. -/
def BezoutOps.affContains (lat : AffLat α) (mat : Mat α) : Option Bool :=
  match lat.elems with
  | .empty => some false
  | .nonEmpty offset linlat => do
    let n ← S.matNeg offset
    let d ← unwrapMat (S.matAdd n mat)
    S.latContains linlat d

/-- One test of the loop of `contains_sublattice`. Models rings/src/linear/subspace.rs:795-800. -/
def BezoutOps.affContainsBasis (lat : AffLat α) (offset : Mat α) (linlat : LinLat α) (n : Nat) : Option Bool := do
  let b ← linlat.basisMatrix n
  let p ← unwrapMat (S.matAdd b offset)
  S.affContains lat p

/-- The loop, when both lattices are non-empty. Models rings/src/linear/subspace.rs:787-806. -/
def BezoutOps.affContainsSubNonEmpty (lat : AffLat α) (offset : Mat α) (linlat : LinLat α) : Option Bool :=
  match lat.elems with
  | .empty => some false
  | .nonEmpty _ _ => (List.range linlat.rank).allM fun n => S.affContainsBasis lat offset linlat n

/-- Models `contains_sublattice`, rings/src/linear/subspace.rs:776-808. -/
def BezoutOps.affContainsSub (lat other : AffLat α) : Option Bool :=
  match other.elems with
  | .empty => some true
  | .nonEmpty offset linlat => S.affContainsSubNonEmpty lat offset linlat

/-- Models `equal`, rings/src/linear/subspace.rs:810-812. -/
def BezoutOps.affEqual (a b : AffLat α) : Option Bool := andM (S.affContainsSub a b) (S.affContainsSub b a)

/-- The loop of `sum`: the sum of the offsets and the list of linear lattices; an empty summand stops it (`none` inside).
Models rings/src/linear/subspace.rs:821-837. -/
def BezoutOps.affSumLoop (rows cols : Nat) : List (AffLat α) → Mat α → List (LinLat α) → Option (Option (Mat α × List (LinLat α)))
  | [], offset, lins => some (some (offset, lins))
  | lat :: rest, sumOffset, lins => do
    assertThat (lat.rows == rows)
    assertThat (lat.cols == cols)
    match lat.elems with
    | .empty => some none
    | .nonEmpty offset linlat => do
      let o ← unwrapMat (S.matAdd sumOffset offset)
      BezoutOps.affSumLoop rows cols rest o (lins ++ [linlat])

/-- The end of `sum`. Models rings/src/linear/subspace.rs:827 and 839-846. -/
def BezoutOps.affSumEnd (rows cols : Nat) : Option (Mat α × List (LinLat α)) → Option (AffLat α)
  | none => some (AffLat.mkEmpty rows cols)
  | some (offset, lins) => (S.latSum rows cols lins).map fun l => ⟨rows, cols, .nonEmpty offset l⟩

/-- Models `sum`, rings/src/linear/subspace.rs:814-845. -/
def BezoutOps.affSum (rows cols : Nat) (lats : List (AffLat α)) : Option (AffLat α) := do
  let z ← S.matZero rows cols
  let r ← S.affSumLoop rows cols lats z []
  S.affSumEnd rows cols r

/-- Models `sum_pair`, rings/src/linear/subspace.rs:847-855. -/
def BezoutOps.affSumPair (rows cols : Nat) (a b : AffLat α) : Option (AffLat α) := S.affSum rows cols [a, b]

/-- `*metamat.at_mut(0, 1 + idx) = offset.at(r, c)`. Models rings/src/linear/subspace.rs:902-906. -/
def metaOffsetStep (rows cols : Nat) (offset : Mat α) (m : Mat α) (idx : Nat) : Option (Mat α) := do
  let rc ← latRc rows cols idx
  let x ← offset.get rc.1 rc.2
  m.set 0 (1 + idx) x

/-- `*metamat.at_mut(1 + bn, 1 + idx) = basis_matrix_element(linlat, bn, r, c)`. Models rings/src/linear/subspace.rs:908-914. -/
def metaBasisStep (rows cols : Nat) (linlat : LinLat α) (bn : Nat) (m : Mat α) (idx : Nat) : Option (Mat α) := do
  let rc ← latRc rows cols idx
  let x ← linlat.basisElement bn rc.1 rc.2
  m.set (1 + bn) (1 + idx) x

/-- Models `offset_linlat_to_metamat`, rings/src/linear/subspace.rs:887-914. -/
def SemiRingOps.offsetMeta {α : Type} (S : SemiRingOps α) (rows cols : Nat) (offset : Mat α) (linlat : LinLat α) : Option (Mat α) := do
  let z ← S.matZero (1 + linlat.rank) (1 + rows * cols)
  let m ← z.set 0 0 S.one
  let m ← (List.range (rows * cols)).foldlM (metaOffsetStep rows cols offset) m
  (List.range linlat.rank).foldlM (fun m bn => (List.range (rows * cols)).foldlM (metaBasisStep rows cols linlat bn) m) m

/-- `*mat.at_mut(r, c) = h.at(row, 1 + idx)`. Models rings/src/linear/subspace.rs:971-974 and 985-988. -/
def unmetaStep (rows cols : Nat) (h : Mat α) (row : Nat) (m : Mat α) (idx : Nat) : Option (Mat α) := do
  let rc ← latRc rows cols idx
  let x ← h.get row (1 + idx)
  m.set rc.1 rc.2 x

/-- A row of the reduced hyperlattice, without its first entry, as a matrix. Models rings/src/linear/subspace.rs:968-975. -/
def SemiRingOps.unmeta {α : Type} (S : SemiRingOps α) (rows cols : Nat) (h : Mat α) (row : Nat) : Option (Mat α) := do
  let z ← S.matZero rows cols
  (List.range (rows * cols)).foldlM (unmetaStep rows cols h row) z

/-- A basis element of the intersection. Models rings/src/linear/subspace.rs:976-989. -/
def SemiRingOps.unmetaBasis {α : Type} (S : SemiRingOps α) (rows cols : Nat) (h : Mat α) (bn : Nat) : Option (Mat α) := do
  let x ← h.get (1 + bn) 0
  assertThat (S.equal x S.zero)
  S.unmeta rows cols h (1 + bn)

/-- The case `a = 1`. Models rings/src/linear/subspace.rs:967-1005 (`pivs.len() - 1` panics when there is no pivot). -/
def BezoutOps.affIntersectFound (rows cols : Nat) (h : Mat α) (pivs : List Nat) : Option (AffLat α) := do
  let offset ← S.unmeta rows cols h 0
  assertThat (pivs.length ≠ 0)
  let mats ← (List.range (pivs.length - 1)).mapM (S.unmetaBasis rows cols h)
  let lin ← S.latFromBasis rows cols mats
  S.affFrom rows cols offset lin

/-- The test of the top left entry. Models rings/src/linear/subspace.rs:952-1010. -/
def BezoutOps.affIntersectTest (rows cols : Nat) (r : HermiteResult α) : Option (AffLat α) := do
  let x ← r.h.get 0 0
  S.unitIsOne x
  if S.equal x S.one then S.affIntersectFound rows cols r.h r.pivs else some (AffLat.mkEmpty rows cols)

/-- Models rings/src/linear/subspace.rs:944-1011. -/
def BezoutOps.affIntersectMeta (rows cols : Nat) (mm : Mat α) : Option (AffLat α) :=
  if mm.rows = 0 then some (AffLat.mkEmpty rows cols)
  else (S.rowHermite mm).bind (S.affIntersectTest rows cols)

/-- The case of two non-empty lattices. Models rings/src/linear/subspace.rs:935-1011. -/
def BezoutOps.affIntersectNonEmpty (rows cols : Nat) (o1 : Mat α) (l1 : LinLat α) (o2 : Mat α) (l2 : LinLat α) : Option (AffLat α) := do
  let m1 ← S.offsetMeta rows cols o1 l1
  let m2 ← S.offsetMeta rows cols o2 l2
  let mm ← S.metaRowIntersection (1 + rows * cols) m1 m2
  S.affIntersectMeta rows cols mm

/-- Models rings/src/linear/subspace.rs:927-1014. -/
def BezoutOps.affIntersectElems (rows cols : Nat) : AffElems α → AffElems α → Option (AffLat α)
  | .empty, _ => some (AffLat.mkEmpty rows cols)
  | .nonEmpty _ _, .empty => some (AffLat.mkEmpty rows cols)
  | .nonEmpty o1 l1, .nonEmpty o2 l2 => S.affIntersectNonEmpty rows cols o1 l1 o2 l2

/-- Models `intersect_pair`, rings/src/linear/subspace.rs:916-1016. -/
def BezoutOps.affIntersectPair (rows cols : Nat) (a b : AffLat α) : Option (AffLat α) := do
  assertThat (a.rows == rows)
  assertThat (a.cols == cols)
  assertThat (b.rows == rows)
  assertThat (b.cols == cols)
  S.affIntersectElems rows cols a.elems b.elems

/-- Models `intersect`, rings/src/linear/subspace.rs:857-885. -/
def BezoutOps.affIntersect (rows cols : Nat) (lats : List (AffLat α)) : Option (AffLat α) :=
  match lats with
  | [] => do
    let z ← S.matZero rows cols
    let mm ← S.matIdent (rows * cols)
    some ⟨rows, cols, .nonEmpty z ⟨mm, rows, cols⟩⟩
  | [a] => some a
  | a :: b :: rest => (S.affIntersectPair rows cols a b).bind fun l => rest.foldlM (S.affIntersectPair rows cols) l

/-- The closure of `row_affine_span`. Models rings/src/linear/matrix.rs:752-757. -/
def BezoutOps.rowDiff (offset a : Mat α) (r c : Nat) : Option α :=
  (offset.get 0 c).bind fun x => (a.get (r + 1) c).map fun y => S.add (S.neg x) y

/-- Models `row_affine_span`, rings/src/linear/matrix.rs:745-763. -/
def BezoutOps.rowAffineSpan (a : Mat α) : Option (AffLat α) :=
  if a.rows = 0 then some (AffLat.mkEmpty 1 a.cols)
  else do
    let offset ← a.getRow 0
    let b ← Mat.construct (a.rows - 1) a.cols (S.rowDiff offset a)
    let lin ← S.rowSpan b
    S.affFrom 1 a.cols offset lin

/-- The closure of `col_affine_span`. Models rings/src/linear/matrix.rs:772-777. -/
def BezoutOps.colDiff (offset a : Mat α) (r c : Nat) : Option α :=
  (offset.get r 0).bind fun x => (a.get r (c + 1)).map fun y => S.add (S.neg x) y

/-- Models `col_affine_span`, rings/src/linear/matrix.rs:765-783. -/
def BezoutOps.colAffineSpan (a : Mat α) : Option (AffLat α) :=
  if a.cols = 0 then some (AffLat.mkEmpty a.rows 1)
  else do
    let offset ← a.getCol 0
    let b ← Mat.construct a.rows (a.cols - 1) (S.colDiff offset a)
    let lin ← S.colSpan b
    S.affFrom a.rows 1 offset lin

/-- The solution case. Models rings/src/linear/matrix.rs:875-877. -/
def BezoutOps.rowSolutionEnd (m : Mat α) : Option (Mat α) → Option (AffLat α)
  | some x => (S.rowKernel m).bind fun k => S.affFrom 1 m.rows x k
  | none => some (AffLat.mkEmpty 1 m.rows)

/-- Models `row_solution_lattice`, rings/src/linear/matrix.rs:869-879. -/
def BezoutOps.rowSolutionLattice (m y : Mat α) : Option (AffLat α) := (S.rowSolve m y).bind (S.rowSolutionEnd m)

/-- The solution case. Models rings/src/linear/matrix.rs:886-889. -/
def BezoutOps.colSolutionEnd (m : Mat α) : Option (Mat α) → Option (AffLat α)
  | some x => (S.colKernel m).bind fun k => S.affFrom m.cols 1 x k
  | none => some (AffLat.mkEmpty m.cols 1)

/-- Models `col_solution_lattice`, rings/src/linear/matrix.rs:881-891. -/
def BezoutOps.colSolutionLattice (m y : Mat α) : Option (AffLat α) := (S.colSolve m y).bind (S.colSolutionEnd m)

end Affine

end Verif.Rings
