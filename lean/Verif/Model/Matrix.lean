import Verif.Model.Structure
import Verif.Model.Perm

/-!
# Matrices

Models rings/src/linear/matrix.rs. A matrix is a flat vector of entries with two dimensions and three flags
(transposed, rows flipped, columns flipped), as in the code. `Option` around a result: `none` is a panic.
`usize` arithmetic is modelled by `Nat` (no overflow).
-/

namespace Verif.Rings

/-- Models `MatOppErr`, rings/src/linear/matrix.rs:12-17. -/
inductive MatErr
  | dimMissmatch
  | invalidIndex
  | notSquare
  deriving DecidableEq, Repr

/-- Models `Matrix`, rings/src/linear/matrix.rs:19-27. -/
structure Mat (α : Type) where
  dim1 : Nat
  dim2 : Nat
  transpose : Bool
  flipRows : Bool
  flipCols : Bool
  elems : List α
  deriving DecidableEq, Repr

/-- The values of the loop variable in `for i in a..b`. -/
def rangeFrom (a b : Nat) : List Nat := List.range' a (b - a)

/-- `Result::unwrap` on a matrix result: an error is a panic. -/
def unwrapMat {β : Type} : Option (Except MatErr β) → Option β
  | some (.ok x) => some x
  | _ => none

section Storage
variable {α β : Type}

/-- Models `check_invariants`, rings/src/linear/matrix.rs:30-35. -/
def Mat.checkInvariants (m : Mat α) : Bool := m.elems.length == m.dim1 * m.dim2

/-- Models `full`, rings/src/linear/matrix.rs:37-50. -/
def Mat.full (rows cols : Nat) (elem : α) : Mat α := ⟨rows, cols, false, false, false, List.replicate (rows * cols) elem⟩

/-- Models `construct`, rings/src/linear/matrix.rs:52-66. `make_entry` may panic. -/
def Mat.construct (rows cols : Nat) (makeEntry : Nat → Nat → Option α) : Option (Mat α) :=
  ((List.range (rows * cols)).mapM fun idx => makeEntry (idx / cols) (idx % cols)).map fun elems =>
    ⟨rows, cols, false, false, false, elems⟩

/-- The closure passed to `construct` by `from_rows`: `rows_elems[r][c]`. Models rings/src/linear/matrix.rs:75. -/
def entryOfRows (rowsElems : List (List α)) (r c : Nat) : Option α := (rowsElems[r]?).bind fun row => row[c]?

/-- Models `from_rows` (without the conversion `Into`), rings/src/linear/matrix.rs:68-76: panics when there is no row or
when the rows have different lengths. -/
def Mat.fromRows (rowsElems : List (List α)) : Option (Mat α) :=
  match rowsElems with
  | [] => none
  | row :: rest =>
    if rest.all fun r => r.length == row.length then
      Mat.construct rowsElems.length row.length (entryOfRows rowsElems)
    else none

/-- Models `rows`, rings/src/linear/matrix.rs:119-124. -/
def Mat.rows (m : Mat α) : Nat := if m.transpose then m.dim2 else m.dim1

/-- Models `cols`, rings/src/linear/matrix.rs:126-131. -/
def Mat.cols (m : Mat α) : Nat := if m.transpose then m.dim1 else m.dim2

/-- `r = self.rows() - r - 1` when the flag is set. Models rings/src/linear/matrix.rs:83-89 (for one axis). -/
def flipIdx (flag : Bool) (n i : Nat) : Nat := if flag then n - i - 1 else i

/-- Models `rc_to_idx`, rings/src/linear/matrix.rs:82-95. -/
def Mat.rcToIdx (m : Mat α) (r c : Nat) : Nat :=
  if m.transpose then flipIdx m.flipRows m.rows r + flipIdx m.flipCols m.cols c * m.dim2
  else flipIdx m.flipCols m.cols c + flipIdx m.flipRows m.rows r * m.dim2

/-- Models `at`, rings/src/linear/matrix.rs:97-106. -/
def Mat.at (m : Mat α) (r c : Nat) : Option (Except MatErr α) :=
  if r ≥ m.rows then some (.error .invalidIndex)
  else if c ≥ m.cols then some (.error .invalidIndex)
  else (m.elems[m.rcToIdx r c]?).map .ok

/-- `self.at(r, c).unwrap()`. -/
def Mat.get (m : Mat α) (r c : Nat) : Option α := unwrapMat (m.at r c)

/-- Replace the entry at an index of the vector; an index out of range is a panic. -/
def Mat.setIdx (m : Mat α) (idx : Nat) (x : α) : Option (Mat α) :=
  if idx < m.elems.length then some { m with elems := m.elems.set idx x } else none

/-- `*self.at_mut(r, c) = x`. Models `at_mut`, rings/src/linear/matrix.rs:108-117. -/
def Mat.atMutSet (m : Mat α) (r c : Nat) (x : α) : Option (Except MatErr (Mat α)) :=
  if r ≥ m.rows then some (.error .invalidIndex)
  else if c ≥ m.cols then some (.error .invalidIndex)
  else (m.setIdx (m.rcToIdx r c) x).map .ok

/-- `*self.at_mut(r, c).unwrap() = x`. -/
def Mat.set (m : Mat α) (r c : Nat) (x : α) : Option (Mat α) := unwrapMat (m.atMutSet r c x)

/-- Models `submatrix`, rings/src/linear/matrix.rs:133-148. -/
def Mat.submatrix (m : Mat α) (rows cols : List Nat) : Option (Mat α) :=
  (rows.mapM fun r => cols.mapM fun c => m.get r c).map fun l => ⟨rows.length, cols.length, false, false, false, l.flatten⟩

/-- Models `get_row`, rings/src/linear/matrix.rs:150-152. -/
def Mat.getRow (m : Mat α) (row : Nat) : Option (Mat α) := m.submatrix [row] (List.range m.cols)

/-- Models `get_col`, rings/src/linear/matrix.rs:154-156. -/
def Mat.getCol (m : Mat α) (col : Nat) : Option (Mat α) := m.submatrix (List.range m.rows) [col]

/-- Models `apply_map`, rings/src/linear/matrix.rs:158-167. -/
def Mat.applyMap (m : Mat α) (f : α → β) : Mat β :=
  ⟨m.dim1, m.dim2, m.transpose, m.flipRows, m.flipCols, m.elems.map f⟩

/-- Models `transpose`, `transpose_ref` and `transpose_mut`, rings/src/linear/matrix.rs:169-179. -/
def Mat.transposed (m : Mat α) : Mat α :=
  { m with transpose := !m.transpose, flipRows := m.flipCols, flipCols := m.flipRows }

/-- Models `flip_rows`, `flip_rows_ref` and `flip_rows_mut`, rings/src/linear/matrix.rs:181-190. -/
def Mat.rowsFlipped (m : Mat α) : Mat α := { m with flipRows := !m.flipRows }

/-- Models `flip_cols`, `flip_cols_ref` and `flip_cols_mut`, rings/src/linear/matrix.rs:192-201. -/
def Mat.colsFlipped (m : Mat α) : Mat α := { m with flipCols := !m.flipCols }

/-- Models `from_cols`, rings/src/linear/matrix.rs:78-80. -/
def Mat.fromCols (colsElems : List (List α)) : Option (Mat α) := (Mat.fromRows colsElems).map Mat.transposed

/-- The closure of `join_rows`: search the matrices, whose first row is row `rowOffset` of the result, for the entry `(r, c)`.
Models rings/src/linear/matrix.rs:209-222. The two inner loops look for `mr`, `mc` with `r = row_offset + mr` and `c = mc`; they are
replaced by the corresponding range test. -/
def joinRowsEntry (cols : Nat) (mats : List (Mat α)) (rowOffset r c : Nat) : Option α :=
  match mats with
  | [] => none
  | mat :: rest =>
    if rowOffset ≤ r ∧ r < rowOffset + mat.rows ∧ c < cols then mat.get (r - rowOffset) c
    else joinRowsEntry cols rest (rowOffset + mat.rows) r c

/-- Models `join_rows`, rings/src/linear/matrix.rs:203-224. -/
def Mat.joinRows (cols : Nat) (mats : List (Mat α)) : Option (Mat α) :=
  if mats.all fun mat => cols == mat.cols then
    Mat.construct (mats.map Mat.rows).sum cols (joinRowsEntry cols mats 0)
  else none

/-- Models `join_cols`, rings/src/linear/matrix.rs:226-233. -/
def Mat.joinCols (rows : Nat) (mats : List (Mat α)) : Option (Mat α) :=
  (Mat.joinRows rows (mats.map Mat.transposed)).map Mat.transposed

/-- Models `entries_list`, rings/src/linear/matrix.rs:235-243. -/
def Mat.entriesList (m : Mat α) : Option (List α) :=
  ((List.range m.rows).mapM fun r => (List.range m.cols).mapM fun c => m.get r c).map List.flatten

/-- `for c in 0..cols { for r in 0..rows { step } }` with a loop body that updates the matrix. -/
def Mat.loopCR (rows cols : Nat) (step : Mat α → Nat → Nat → Option (Mat α)) (m : Mat α) : Option (Mat α) :=
  (List.range cols).foldlM (fun m c => (List.range rows).foldlM (fun m r => step m r c) m) m

/-- `for r in 0..rows { for c in 0..cols { step } }` with a loop body that updates the matrix. -/
def Mat.loopRC (rows cols : Nat) (step : Mat α → Nat → Nat → Option (Mat α)) (m : Mat α) : Option (Mat α) :=
  (List.range rows).foldlM (fun m r => (List.range cols).foldlM (fun m c => step m r c) m) m

/-- A loop body that replaces the entry at `(r, c)` by `f` of it. -/
def Mat.modify (f : α → Option α) (m : Mat α) (r c : Nat) : Option (Mat α) :=
  (m.get r c).bind fun x => (f x).bind fun y => m.set r c y

end Storage

section Semi
variable {α : Type} (S : SemiRingOps α)

/-- The comparison of one entry. Models rings/src/linear/matrix.rs:276. -/
def SemiRingOps.matEntryEq (a b : Mat α) (r c : Nat) : Option Bool :=
  (a.get r c).bind fun x => (b.get r c).map fun y => S.equal x y

/-- Models `equal`, rings/src/linear/matrix.rs:266-284. -/
def SemiRingOps.matEqual (a b : Mat α) : Option Bool :=
  if a.rows ≠ b.rows then some false
  else if a.cols ≠ b.cols then some false
  else (List.range a.cols).allM fun c => (List.range a.rows).allM fun r => S.matEntryEq a b r c

/-- Models `zero`, rings/src/linear/matrix.rs:343-345. -/
def SemiRingOps.matZero (rows cols : Nat) : Option (Mat α) := Mat.construct rows cols fun _ _ => some S.zero

/-- The closure of `ident`. Models rings/src/linear/matrix.rs:348-354. -/
def SemiRingOps.identEntry (r c : Nat) : α := if r = c then S.one else S.zero

/-- Models `ident`, rings/src/linear/matrix.rs:347-355. -/
def SemiRingOps.matIdent (n : Nat) : Option (Mat α) := Mat.construct n n fun r c => some (S.identEntry r c)

/-- The closure of `diag`. Models rings/src/linear/matrix.rs:358-364. -/
def SemiRingOps.diagEntry (d : List α) (r c : Nat) : Option α := if r = c then d[r]? else some S.zero

/-- Models `diag`, rings/src/linear/matrix.rs:357-365. -/
def SemiRingOps.matDiag (d : List α) : Option (Mat α) := Mat.construct d.length d.length (S.diagEntry d)

/-- The closure of `join_diag`. Models rings/src/linear/matrix.rs:380-388. -/
def SemiRingOps.joinDiagEntry (first last : Mat α) (r c : Nat) : Option α :=
  if r < first.rows ∧ c < first.cols then first.get r c
  else if first.rows ≤ r ∧ first.cols ≤ c then last.get (r - first.rows) (c - first.cols)
  else some S.zero

/-- The last step of `join_diag`. Models rings/src/linear/matrix.rs:377-389. -/
def SemiRingOps.joinDiagTwo (first last : Mat α) : Option (Mat α) :=
  Mat.construct (first.rows + last.rows) (first.cols + last.cols) (S.joinDiagEntry first last)

/-- Models `join_diag`, rings/src/linear/matrix.rs:367-391. -/
def SemiRingOps.matJoinDiag (mats : List (Mat α)) : Option (Mat α) :=
  match mats with
  | [] => Mat.construct 0 0 fun _ _ => none
  | [m] => some m
  | a :: b :: rest =>
    let l := a :: b :: rest
    let i := l.length / 2
    (SemiRingOps.matJoinDiag (l.take i)).bind fun first =>
      (SemiRingOps.matJoinDiag (l.drop i)).bind fun last => S.joinDiagTwo first last
termination_by mats.length
decreasing_by
  · simp; omega
  · simp; omega

/-- One step of the loop of `dot`. Models rings/src/linear/matrix.rs:401-404. -/
def SemiRingOps.dotStep (a b : Mat α) (r : Nat) (tot : α) (c : Nat) : Option α :=
  (a.get r c).bind fun x => (b.get r c).map fun y => S.add tot (S.mul x y)

/-- Models `dot`, rings/src/linear/matrix.rs:393-408. -/
def SemiRingOps.matDot (a b : Mat α) : Option α :=
  if a.rows = b.rows ∧ a.cols = b.cols then
    (List.range a.rows).foldlM (fun tot r => (List.range a.cols).foldlM (S.dotStep a b r) tot) S.zero
  else none

/-- The loop body of `add_mut`. Models rings/src/linear/matrix.rs:418-419. -/
def SemiRingOps.matAddStep (b a : Mat α) (r c : Nat) : Option (Mat α) :=
  (b.get r c).bind fun y => Mat.modify (fun x => some (S.add x y)) a r c

/-- Models `add_mut` and `add`, rings/src/linear/matrix.rs:410-436. -/
def SemiRingOps.matAdd (a b : Mat α) : Option (Except MatErr (Mat α)) :=
  if a.rows ≠ b.rows ∨ a.cols ≠ b.cols then some (.error .dimMissmatch)
  else (Mat.loopCR a.rows a.cols (S.matAddStep b) a).map .ok

/-- The innermost loop body of `mul`. Models rings/src/linear/matrix.rs:467-470. -/
def SemiRingOps.matMulStep (a b : Mat α) (r c : Nat) (s : Mat α) (k : Nat) : Option (Mat α) :=
  (a.get r k).bind fun x => (b.get k c).bind fun y => Mat.modify (fun z => some (S.add z (S.mul x y))) s r c

/-- Models `mul`, rings/src/linear/matrix.rs:452-475. -/
def SemiRingOps.matMul (a b : Mat α) : Option (Except MatErr (Mat α)) :=
  if a.cols ≠ b.rows then some (.error .dimMissmatch)
  else (S.matZero a.rows b.cols).bind fun s =>
    (Mat.loopRC a.rows b.cols (fun s r c => (List.range a.cols).foldlM (S.matMulStep a b r c) s) s).map .ok

/-- Models `mul_scalar` and `mul_scalar_ref`, rings/src/linear/matrix.rs:477-488. -/
def SemiRingOps.matMulScalar (a : Mat α) (scalar : α) : Option (Mat α) :=
  Mat.loopRC a.rows a.cols (Mat.modify fun x => some (S.mul x scalar)) a

/-- Models `trace`, rings/src/linear/matrix.rs:514-521. -/
def SemiRingOps.matTrace (a : Mat α) : Option (Except MatErr α) :=
  if a.dim1 ≠ a.dim2 then some (.error .notSquare)
  else ((List.range a.dim1).mapM fun i => a.get i i).map fun l => .ok (S.sum l)

/-- `self.mul(a, b).unwrap()`. -/
def SemiRingOps.matMulUnwrap (a b : Mat α) : Option (Mat α) := unwrapMat (S.matMul a b)

/-- The loop `while pows.len() < bits.len()`. Models rings/src/linear/matrix.rs:535-540; `last` is `pows.last().unwrap()`. -/
def SemiRingOps.matGrowPows : Nat → List (Mat α) → Mat α → Option (List (Mat α))
  | 0, pows, _ => some pows
  | k + 1, pows, last => (S.matMulUnwrap last last).bind fun sq => SemiRingOps.matGrowPows k (pows ++ [sq]) sq

/-- The body of the last loop of `nat_pow`. Models rings/src/linear/matrix.rs:545-547. -/
def SemiRingOps.matPowStep (ans : Mat α) (bp : Bool × Mat α) : Option (Mat α) :=
  if bp.1 then S.matMulUnwrap ans bp.2 else some ans

/-- Models `nat_pow`, rings/src/linear/matrix.rs:523-553. -/
def SemiRingOps.matNatPow (a : Mat α) (k : Nat) : Option (Mat α) :=
  if a.rows ≠ a.cols then none
  else if k = 0 then S.matIdent a.rows
  else if k = 1 then some a
  else
    (S.matGrowPows (k.bits.length - 1) [a] a).bind fun pows =>
      (S.matIdent a.rows).bind fun one => (k.bits.zip pows).foldlM S.matPowStep one

end Semi

section RingSec
variable {α : Type} (S : RingOps α)

/-- Models `neg_mut` and `neg`, rings/src/linear/matrix.rs:438-450. -/
def RingOps.matNeg (a : Mat α) : Option (Mat α) := Mat.loopRC a.rows a.cols (Mat.modify fun x => some (S.neg x)) a

/-- `if perm.sign() is Flip { prod = -prod }`. Models rings/src/linear/matrix.rs:501-506. -/
def RingOps.detSigned (perm : List Nat) (prod : α) : α :=
  match Verif.Perm.sign perm with
  | .identity => prod
  | .flip => S.neg prod

/-- The term of one permutation. Models rings/src/linear/matrix.rs:497-506. -/
def RingOps.detTerm (a : Mat α) (n : Nat) (perm : List Nat) : Option α :=
  ((List.range n).foldlM (fun prod k => (a.get k (Verif.Perm.call perm k)).map fun x => S.mul prod x) S.one).map
    (S.detSigned perm)

/-- Models `det_naive`, rings/src/linear/matrix.rs:490-512. -/
def RingOps.detNaive (a : Mat α) : Option (Except MatErr α) :=
  if a.dim1 ≠ a.dim2 then some (.error .notSquare)
  else ((Verif.Perm.allPermutations a.dim1).foldlM (fun det perm => (S.detTerm a a.dim1 perm).map fun t => S.add det t)
    S.zero).map .ok

end RingSec

/-- Models `ElementaryOppType`, rings/src/linear/matrix.rs:555-581. -/
inductive ElemOp (α : Type)
  | swap (i j : Nat)
  | unitMul (row : Nat) (unit : α)
  | addRowMul (i j : Nat) (x : α)
  | twoInv (i j : Nat) (a b c d : α)

section Dom
variable {α : Type} (S : DomainOps α)

/-- The test of the determinant of the 2×2 block. Models rings/src/linear/matrix.rs:611-625. -/
def DomainOps.twoInvOk (a b c d : α) : Option Bool :=
  (unwrapMat (S.toRingOps.detNaive ⟨2, 2, false, false, false, [a, b, c, d]⟩)).bind S.isUnit

/-- Models `ElementaryOpp::check_invariants`, rings/src/linear/matrix.rs:590-629. -/
def DomainOps.elemOk : ElemOp α → Option Bool
  | .swap i j => some (i != j)
  | .addRowMul i j _ => some (i != j)
  | .unitMul _ unit => S.isUnit unit
  | .twoInv i j a b c d => if i = j then some false else S.twoInvOk a b c d

/-- Models `ElementaryOpp::det`, rings/src/linear/matrix.rs:647-667. -/
def DomainOps.elemDet : ElemOp α → α
  | .swap _ _ => S.neg S.one
  | .unitMul _ unit => unit
  | .addRowMul _ _ _ => S.one
  | .twoInv _ _ a b c d => S.add (S.mul a d) (S.neg (S.mul b c))

/-- The loop body of `apply` for `Swap`. Models rings/src/linear/matrix.rs:679-681. -/
def swapStep (i j : Nat) (m : Mat α) (col : Nat) : Option (Mat α) :=
  (m.get i col).bind fun tmp => (m.get j col).bind fun y => (m.set i col y).bind fun m => m.set j col tmp

/-- The loop body of `apply` for `AddRowMul`. Models rings/src/linear/matrix.rs:688-689. -/
def DomainOps.addRowMulStep (i j : Nat) (x : α) (m : Mat α) (col : Nat) : Option (Mat α) :=
  (m.get j col).bind fun y => Mat.modify (fun z => some (S.add z (S.mul y x))) m i col

/-- The loop body of `apply` for `UnitMul`. Models rings/src/linear/matrix.rs:696. -/
def DomainOps.unitMulStep (row : Nat) (unit : α) (m : Mat α) (col : Nat) : Option (Mat α) :=
  Mat.modify (fun z => some (S.mul z unit)) m row col

/-- The loop body of `apply` for `TwoInv`. Models rings/src/linear/matrix.rs:703-713. -/
def DomainOps.twoInvStep (i j : Nat) (a b c d : α) (m : Mat α) (col : Nat) : Option (Mat α) :=
  (m.get i col).bind fun x => (m.get j col).bind fun y =>
    (m.set i col (S.add (S.mul a x) (S.mul b y))).bind fun m => m.set j col (S.add (S.mul c x) (S.mul d y))

/-- The loop body of `apply`, by kind of operation. Models rings/src/linear/matrix.rs:674-717. -/
def DomainOps.elemStep : ElemOp α → Mat α → Nat → Option (Mat α)
  | .swap i j => swapStep i j
  | .addRowMul i j x => S.addRowMulStep i j x
  | .unitMul row unit => S.unitMulStep row unit
  | .twoInv i j a b c d => S.twoInvStep i j a b c d

/-- The row operation on a matrix. Models rings/src/linear/matrix.rs:674-717. -/
def DomainOps.elemRows (op : ElemOp α) (m : Mat α) : Option (Mat α) :=
  (List.range m.cols).foldlM (S.elemStep op) m

/-- `apply` for a row operation. Models `ElementaryOpp::apply`, rings/src/linear/matrix.rs:669-721, with its debug assertion. -/
def DomainOps.rowOp (op : ElemOp α) (m : Mat α) : Option (Mat α) := do
  let ok ← S.elemOk op
  assertThat ok
  S.elemRows op m

/-- `apply` for a column operation: on the transposed matrix. Models `ElementaryOpp::apply`, rings/src/linear/matrix.rs:669-721. -/
def DomainOps.colOp (op : ElemOp α) (m : Mat α) : Option (Mat α) := do
  let ok ← S.elemOk op
  assertThat ok
  (S.elemRows op m.transposed).map Mat.transposed

/-- `!self.ring.equal(m.at(r, c).unwrap(), &self.ring.zero())`. -/
def SemiRingOps.nonzeroAt {α : Type} (S : SemiRingOps α) (m : Mat α) (r c : Nat) : Option Bool :=
  (m.get r c).map fun x => !S.equal x S.zero

/-- Models `'next_pivot_loop`, rings/src/linear/matrix.rs:912-924: the next column that has a non-zero entry in row `pr` or below. -/
def SemiRingOps.nextPivot {α : Type} (S : SemiRingOps α) (m : Mat α) (pr pc : Nat) : Option (Option Nat) :=
  if pc = m.cols then some none
  else if m.cols < pc then none
  else do
    let nz ← (rangeFrom pr m.rows).anyM fun r => S.nonzeroAt m r pc
    match nz with
    | true => some (some pc)
    | false => SemiRingOps.nextPivot S m pr (pc + 1)
termination_by m.cols - pc

end Dom

/-- The variables `m`, `u` and `u_det` of the Hermite algorithm. Models rings/src/linear/matrix.rs:904-906. -/
structure HState (α : Type) where
  m : Mat α
  u : Mat α
  det : α

section Hermite
variable {α : Type} (S : BezoutOps α)

/-- Apply one row operation to `m` and `u` and multiply the determinant. Models rings/src/linear/matrix.rs:957-959. -/
def DomainOps.hermiteApply {α : Type} (S : DomainOps α) (op : ElemOp α) (st : HState α) : Option (HState α) := do
  let m ← S.rowOp op st.m
  let u ← S.rowOp op st.u
  some ⟨m, u, S.mul st.det (S.elemDet op)⟩

/-- The operation that clears row `r` with row `pr`. Models rings/src/linear/matrix.rs:936-955. -/
def BezoutOps.clearOp (pr r : Nat) (a b : α) : Option (ElemOp α) := do
  let t ← S.xgcd a b
  assertThat (S.equal (S.add (S.mul t.2.1 a) (S.mul t.2.2 b)) t.1)
  let bd ← unwrapDiv (S.div b t.1)
  let ad ← unwrapDiv (S.div a t.1)
  some (.twoInv pr r t.2.1 t.2.2 (S.neg bd) ad)

/-- Models rings/src/linear/matrix.rs:936-959. -/
def BezoutOps.hermiteClear (pr r : Nat) (a b : α) (st : HState α) : Option (HState α) :=
  (S.clearOp pr r a b).bind fun op => S.hermiteApply op st

/-- The body of the loop over the rows below the pivot. Models rings/src/linear/matrix.rs:930-960. -/
def BezoutOps.hermiteRow (pr pc : Nat) (st : HState α) (r : Nat) : Option (HState α) :=
  (st.m.get pr pc).bind fun a => (st.m.get r pc).bind fun b =>
    if !S.equal a S.zero || !S.equal b S.zero then S.hermiteClear pr r a b st else some st

/-- The last row: make the pivot a favourite associate. Models rings/src/linear/matrix.rs:963-975. -/
def BezoutOps.hermiteUnit (pr pc : Nat) (st : HState α) : Option (HState α) := do
  let x ← st.m.get pr pc
  let ua ← S.factorFavAssoc x
  let i ← unwrapDiv (S.inv ua.1)
  S.hermiteApply (.unitMul pr i) st

/-- The work on one pivot. Models rings/src/linear/matrix.rs:927-976. -/
def BezoutOps.hermiteStep (rows pr pc : Nat) (st : HState α) : Option (HState α) :=
  if pr + 1 < rows then (rangeFrom (pr + 1) rows).foldlM (S.hermiteRow pr pc) st else S.hermiteUnit pr pc st

/-- The debug assertion that the column below the pivot is zero. Models rings/src/linear/matrix.rs:979-981. -/
def BezoutOps.hermiteCheck (rows pr pc : Nat) (st : HState α) : Option Unit := do
  let nz ← (rangeFrom (pr + 1) rows).anyM fun r => S.nonzeroAt st.m r pc
  assertThat (!nz)

/-- Models `'pivot_loop`, rings/src/linear/matrix.rs:909-983. `rows` is `m.rows()`, which the loop does not change. -/
def BezoutOps.hermiteLoop (rows pr pc : Nat) (st : HState α) (pivs : List Nat) : Option (HState α × List Nat) :=
  if pr < rows then do
    let piv ← S.nextPivot st.m pr pc
    match piv with
    | none => some (st, pivs)
    | some pc => do
      let st ← S.hermiteStep rows pr pc st
      S.hermiteCheck rows pr pc st
      BezoutOps.hermiteLoop rows (pr + 1) pc st (pivs ++ [pc])
  else some (st, pivs)
termination_by rows - pr

/-- The result `(H, U, u_det, pivots)` of the Hermite algorithm. -/
structure HermiteResult (α : Type) where
  h : Mat α
  u : Mat α
  det : α
  pivs : List Nat

/-- The last debug assertion: `det_naive(u) = u_det` for at most 4 rows. Models rings/src/linear/matrix.rs:985-987. -/
def RingOps.detCheck {α : Type} (S : RingOps α) (rows : Nat) (u : Mat α) (det : α) : Option Unit :=
  if rows ≤ 4 then (unwrapMat (S.detNaive u)).bind fun d => assertThat (S.equal d det) else some ()

/-- Models `row_hermite_algorithm`, rings/src/linear/matrix.rs:895-990. -/
def BezoutOps.rowHermite (m : Mat α) : Option (HermiteResult α) := do
  let u ← S.matIdent m.rows
  let r ← S.hermiteLoop m.rows 0 0 ⟨m, u, S.one⟩ []
  S.detCheck r.1.m.rows r.1.u r.1.det
  some ⟨r.1.m, r.1.u, r.1.det, r.2⟩

/-- Models `col_hermite_algorithm`, rings/src/linear/matrix.rs:992-998. -/
def BezoutOps.colHermite (a : Mat α) : Option (HermiteResult α) :=
  (S.rowHermite a.transposed).map fun r => ⟨r.h.transposed, r.u.transposed, r.det, r.pivs⟩

/-- Models `det_hermite`, rings/src/linear/matrix.rs:1000-1010. -/
def BezoutOps.detHermite (a : Mat α) : Option α := do
  assertThat (a.rows == a.cols)
  let r ← S.rowHermite a
  let hDet ← (List.range a.rows).foldlM (fun d i => (r.h.get i i).map fun x => S.mul d x) S.one
  unwrapDiv (S.div hDet r.det)

/-- Models `det`, rings/src/linear/matrix.rs:1012-1022. -/
def BezoutOps.matDet (a : Mat α) : Option (Except MatErr α) :=
  if a.rows ≠ a.cols then some (.error .notSquare)
  else if a.rows ≤ 3 then (unwrapMat (S.detNaive a)).map .ok
  else (S.detHermite a).map .ok

/-- Models `rank`, rings/src/linear/matrix.rs:1024-1027. -/
def BezoutOps.matRank (a : Mat α) : Option Nat := (S.rowHermite a).map fun r => r.pivs.length

end Hermite

section Reduced
variable {α : Type} (S : EucOps α)

/-- Apply one row operation to both matrices. Models rings/src/linear/matrix.rs:1324-1325. -/
def DomainOps.applyBoth {α : Type} (S : DomainOps α) (op : ElemOp α) (hu : Mat α × Mat α) : Option (Mat α × Mat α) := do
  let h ← S.rowOp op hu.1
  let u ← S.rowOp op hu.2
  some (h, u)

/-- The body of the inner loop: reduce the entry above a pivot. Models rings/src/linear/matrix.rs:1311-1325. -/
def EucOps.reduceEntry (pr pc : Nat) (hu : Mat α × Mat α) (r : Nat) : Option (Mat α × Mat α) := do
  let a ← hu.1.get r pc
  let b ← hu.1.get pr pc
  let q ← (S.quo a b).bind id
  S.applyBoth (.addRowMul r pr (S.neg q)) hu

/-- The loop over the rows above a pivot. Models rings/src/linear/matrix.rs:1310-1326. -/
def EucOps.reducePivot (hu : Mat α × Mat α) (p : Nat × Nat) : Option (Mat α × Mat α) :=
  (List.range p.1).foldlM (S.reduceEntry p.1 p.2) hu

/-- The pairs `(pr, pc)` of `pivs.iter().enumerate()`. -/
def enumerateFrom {β : Type} : Nat → List β → List (Nat × β)
  | _, [] => []
  | n, x :: xs => (n, x) :: enumerateFrom (n + 1) xs

/-- Models `row_reduced_hermite_algorithm`, rings/src/linear/matrix.rs:1303-1330. The Bézout structure is the Euclidean one
(`euclidean_xgcd`), as in every implementation in the crate. Returns `(H, U, pivots)`. -/
def EucOps.rowReducedHermite (m : Mat α) : Option (Mat α × Mat α × List Nat) := do
  let r ← S.bezout.rowHermite m
  let hu ← (enumerateFrom 0 r.pivs).foldlM S.reducePivot (r.h, r.u)
  some (hu.1, hu.2, r.pivs)

/-- Models `col_reduced_hermite_algorithm`, rings/src/linear/matrix.rs:1336-1342. -/
def EucOps.colReducedHermite (m : Mat α) : Option (Mat α × Mat α × List Nat) :=
  (S.rowReducedHermite m.transposed).map fun r => (r.1.transposed, r.2.1.transposed, r.2.2)

/-- Models `inv`, rings/src/linear/matrix.rs:1348-1358. -/
def EucOps.matInv (a : Mat α) : Option (Option (Mat α)) := do
  assertThat (a.rows == a.cols)
  let r ← S.rowReducedHermite a
  let one ← S.matIdent a.rows
  let eq ← S.matEqual r.1 one
  match eq with
  | true => some (some r.2.1)
  | false => some none

end Reduced

section Primitive
variable {α : Type} (S : GcdOps α)

/-- The loop of `factor_primitive`. Models rings/src/linear/matrix.rs:1368-1372. -/
def DomainOps.matDivScalar {α : Type} (S : DomainOps α) (m : Mat α) (g : α) : Option (Mat α) :=
  Mat.loopRC m.rows m.cols (Mat.modify fun x => unwrapDiv (S.div x g)) m

/-- Models `factor_primitive`, rings/src/linear/matrix.rs:1362-1375. -/
def GcdOps.matFactorPrimitive (m : Mat α) : Option (Option (α × Mat α)) := do
  let entries ← m.entriesList
  let g ← S.gcdList entries
  match S.isZero g with
  | true => some none
  | false => (S.matDivScalar m g).map fun p => some (g, p)

/-- Models `primitive_part`, rings/src/linear/matrix.rs:1377-1382. -/
def GcdOps.matPrimitivePart (m : Mat α) : Option (Option (Mat α)) := (S.matFactorPrimitive m).map fun r => r.map (·.2)

/-- `factor_primitive(..).unwrap()`: a panic on the zero matrix. -/
def GcdOps.matFactorPrimitiveUnwrap (m : Mat α) : Option (α × Mat α) := (S.matFactorPrimitive m).bind id

/-- `apply_map` with a closure that may panic. Models rings/src/linear/matrix.rs:158-167. -/
def Mat.applyMapM {α β : Type} (m : Mat α) (f : α → Option β) : Option (Mat β) :=
  (m.elems.mapM f).map fun l => ⟨m.dim1, m.dim2, m.transpose, m.flipRows, m.flipCols, l⟩

/-- Models `factor_primitive_fof`, rings/src/linear/matrix.rs:1389-1416: `S` is the field of fractions of `B`, with
`from_base_ring`, `numerator` and `denominator` given. -/
def matFactorPrimitiveFof {α β : Type} (S : DomainOps α) (B : GcdOps β) (fromBase : β → α) (num den : α → β) (m : Mat α) :
    Option (α × Mat β) := do
  let entries ← m.entriesList
  let d ← B.lcmList (entries.map den)
  let q ← m.applyMapM fun c => asBaseRing B.toSemiRingOps num den (S.mul (fromBase d) c)
  let mp ← B.matFactorPrimitiveUnwrap q
  let c ← unwrapDiv (S.div (fromBase mp.1) (fromBase d))
  some (c, mp.2)

end Primitive

end Verif.Rings
