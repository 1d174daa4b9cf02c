import Verif.Model.Matrix
import Verif.Model.Polynomial

/-!
# Smith normal form, characteristic and minimal polynomials, Gram–Schmidt

Models rings/src/linear/matrix.rs:1029-1608.
-/

namespace Verif.Rings

/-- The variables `m`, `u` and `v` of the Smith algorithm. Models rings/src/linear/matrix.rs:1032-1035. -/
structure SState (α : Type) where
  m : Mat α
  u : Mat α
  v : Mat α

section Apply
variable {α : Type} (S : DomainOps α)

/-- A row operation on `m` and `u`, as in rings/src/linear/matrix.rs:1095-1096. -/
def DomainOps.smithRow (op : ElemOp α) (st : SState α) : Option (SState α) := do
  let m ← S.rowOp op st.m
  let u ← S.rowOp op st.u
  some ⟨m, u, st.v⟩

/-- A column operation on `m` and `v`, as in rings/src/linear/matrix.rs:1051-1052. -/
def DomainOps.smithCol (op : ElemOp α) (st : SState α) : Option (SState α) := do
  let m ← S.colOp op st.m
  let v ← S.colOp op st.v
  some ⟨m, st.u, v⟩

/-- The operation on `m` and `u` that the code calls `row_opp` in the search: it is made with `new_col_opp`, so it is a *column*
operation applied to `m` and to `u`. Models rings/src/linear/matrix.rs:1069-1075. -/
def DomainOps.smithColU (op : ElemOp α) (st : SState α) : Option (SState α) := do
  let m ← S.colOp op st.m
  let u ← S.colOp op st.u
  some ⟨m, u, st.v⟩

/-- The positions `(r, c)` below row `n` in the order in which they are searched. Models rings/src/linear/matrix.rs:1058-1059. -/
def smithBelow (n rows cols : Nat) : List (Nat × Nat) :=
  (rangeFrom (n + 1) rows).flatMap fun r => (rangeFrom n cols).map fun c => (r, c)

/-- The search in the rows below row `n`; `none` inside means that everything remaining is zero.
Models rings/src/linear/matrix.rs:1057-1082. -/
def DomainOps.smithSearchBelow (n rows cols : Nat) (st : SState α) : Option (Option (SState α)) := do
  let found ← (smithBelow n rows cols).findM? fun p => S.nonzeroAt st.m p.1 p.2
  match found with
  | some p => do
    let st ← S.smithCol (.swap n p.2) st
    let st ← S.smithColU (.swap n p.1) st
    some (some st)
  | none => some none

/-- The search in row `n`. Models rings/src/linear/matrix.rs:1043-1056. -/
def DomainOps.smithSearchRow (n rows cols : Nat) (st : SState α) : Option (Option (SState α)) := do
  let found ← (rangeFrom (n + 1) cols).findM? fun c => S.nonzeroAt st.m n c
  match found with
  | some c => do
    let st ← S.smithCol (.swap n c) st
    some (some st)
  | none => S.smithSearchBelow n rows cols st

/-- The search for a non-zero entry. Models `'search_for_nonzero_element`, rings/src/linear/matrix.rs:1041-1084. -/
def DomainOps.smithSearch (n rows cols : Nat) (st : SState α) : Option (Option (SState α)) := do
  let nz ← S.nonzeroAt st.m n n
  match nz with
  | true => some (some st)
  | false => S.smithSearchRow n rows cols st

end Apply

section Smith
variable {α : Type} (S : BezoutOps α)

/-- Make the entry `(n, n)` a favourite associate. Models rings/src/linear/matrix.rs:1086-1096. -/
def BezoutOps.smithUnit (n : Nat) (st : SState α) : Option (SState α) := do
  let x ← st.m.get n n
  let ua ← S.factorFavAssoc x
  let i ← unwrapDiv (S.inv ua.1)
  S.smithRow (.unitMul n i) st

/-- The match on the result of `div(b, a)`: the operation that replaces `(a, b)` by `(gcd, 0)`, and whether `a` divided `b`.
Models rings/src/linear/matrix.rs:1106-1154 (columns) and 1166-1214 (rows). -/
def BezoutOps.smithMatch (n k : Nat) (a b : α) : Except DivErr α → Option (ElemOp α × Bool)
  | .ok q => some (.addRowMul k n (S.neg q), true)
  | .error .notDivisible => (S.clearOp n k a b).map fun op => (op, false)
  | .error .divideByZero => some (.swap n k, true)

/-- The operation that clears `b` with `a`. Models rings/src/linear/matrix.rs:1104-1154 and 1164-1214. -/
def BezoutOps.smithClearOp (n k : Nat) (a b : α) : Option (ElemOp α × Bool) :=
  (S.div b a).bind (S.smithMatch n k a b)

/-- The loop body over the columns `c`. Models rings/src/linear/matrix.rs:1103-1155; the flag is `all_divisible`. -/
def BezoutOps.smithRowEntry (n : Nat) (st : SState α × Bool) (c : Nat) : Option (SState α × Bool) := do
  let a ← st.1.m.get n n
  let b ← st.1.m.get n c
  let od ← S.smithClearOp n c a b
  let st' ← S.smithCol od.1 st.1
  some (st', st.2 && od.2)

/-- The loop body over the rows `r`. Models rings/src/linear/matrix.rs:1163-1215. -/
def BezoutOps.smithColEntry (n : Nat) (st : SState α × Bool) (r : Nat) : Option (SState α × Bool) := do
  let a ← st.1.m.get n n
  let b ← st.1.m.get r n
  let od ← S.smithClearOp n r a b
  let st' ← S.smithRow od.1 st.1
  some (st', st.2 && od.2)

/-- Clear the first row. Models rings/src/linear/matrix.rs:1101-1155. -/
def BezoutOps.smithClearRow (n cols : Nat) (st : SState α) : Option (SState α × Bool) :=
  (rangeFrom (n + 1) cols).foldlM (S.smithRowEntry n) (st, true)

/-- Clear the first column. Models rings/src/linear/matrix.rs:1161-1215. -/
def BezoutOps.smithClearCol (n rows : Nat) (st : SState α) : Option (SState α × Bool) :=
  (rangeFrom (n + 1) rows).foldlM (S.smithColEntry n) (st, true)

/-- Models `'zero_first_row_and_column_loop`, rings/src/linear/matrix.rs:1100-1219. -/
def BezoutOps.smithZero (n rows cols : Nat) (first : Bool) (st : SState α) : Option (SState α) := do
  let r ← S.smithClearRow n cols st
  if r.2 && !first then some r.1
  else do
    let r ← S.smithClearCol n rows r.1
    if r.2 then some r.1 else BezoutOps.smithZero n rows cols false r.1
partial_fixpoint

/-- The inner loop body of the fiddling step. Models rings/src/linear/matrix.rs:1237-1264. -/
def BezoutOps.smithFiddleCol (n : Nat) (st : SState α) (c : Nat) : Option (SState α) :=
  (st.m.get n n).bind fun a => (st.m.get n c).bind fun b =>
    if !S.isZero a || !S.isZero b then (S.clearOp n c a b).bind fun op => S.smithCol op st else some st

/-- The outer loop body of the fiddling step. Models rings/src/linear/matrix.rs:1223-1265. -/
def BezoutOps.smithFiddleRow (n cols : Nat) (st : SState α) (r : Nat) : Option (SState α) := do
  let st ← S.smithRow (.addRowMul n r S.one) st
  (rangeFrom (n + 1) cols).foldlM (S.smithFiddleCol n) st

/-- The loop body that fixes the first column. Models rings/src/linear/matrix.rs:1267-1282. -/
def BezoutOps.smithFix (n : Nat) (st : SState α) (r : Nat) : Option (SState α) := do
  let a ← st.m.get n n
  let b ← st.m.get r n
  let q ← unwrapDiv (S.div b a)
  S.smithRow (.addRowMul r n (S.neg q)) st

/-- One round of the induction, after the search. Models rings/src/linear/matrix.rs:1086-1282, with the debug assertion of line 1221. -/
def BezoutOps.smithStep (n rows cols : Nat) (st : SState α) : Option (SState α) := do
  let st ← S.smithUnit n st
  let st ← S.smithZero n rows cols true st
  let nz ← S.nonzeroAt st.m n n
  assertThat nz
  let st ← (rangeFrom (n + 1) rows).foldlM (S.smithFiddleRow n cols) st
  (rangeFrom (n + 1) rows).foldlM (S.smithFix n) st

/-- Models `'inductive_loop`, rings/src/linear/matrix.rs:1037-1289. `rows` and `cols` are `m.rows()` and `m.cols()`, which the loop does
not change. -/
def BezoutOps.smithLoop (n rows cols : Nat) (st : SState α) : Option (SState α × Nat) :=
  if n < rows ∧ n < cols then do
    let found ← S.smithSearch n rows cols st
    match found with
    | none => some (st, n)
    | some st => do
      let st ← S.smithStep n rows cols st
      let nz ← S.nonzeroAt st.m n n
      match nz with
      | false => some (st, n)
      | true => BezoutOps.smithLoop (n + 1) rows cols st
  else some (st, n)
termination_by rows - n

/-- The result `(u, s, v, k)` of the Smith algorithm. -/
structure SmithResult (α : Type) where
  u : Mat α
  s : Mat α
  v : Mat α
  k : Nat
  deriving DecidableEq, Repr

/-- Models `smith_algorithm`, rings/src/linear/matrix.rs:1030-1292. -/
def BezoutOps.smith (m : Mat α) : Option (SmithResult α) := do
  let u ← S.matIdent m.rows
  let v ← S.matIdent m.cols
  let r ← S.smithLoop 0 m.rows m.cols ⟨m, u, v⟩
  some ⟨r.1.u, r.1.m, r.1.v, r.2⟩

end Smith

section CharPoly
variable {α : Type} (S : DomainOps α)

/-- The matrix `m - x` of polynomials. Models rings/src/linear/matrix.rs:1429-1437. -/
def DomainOps.presentation (m : Mat α) : Option (Mat (List α)) := do
  let d ← S.toRingOps.poly.matDiag ((List.range m.rows).map fun _ => S.polyVar)
  let d ← S.toRingOps.poly.matNeg d
  unwrapMat (S.toRingOps.poly.matAdd (m.applyMap polyConst) d)

/-- Models `presentation_matrix`, rings/src/linear/matrix.rs:1421-1439, over a field. -/
def DomainOps.presentationMatrix (m : Mat α) : Option (Except MatErr (Mat (List α))) :=
  if m.rows ≠ m.cols then some (.error .notSquare) else (S.presentation m).map .ok

/-- The match on the result of `presentation_matrix`: `NotSquare` is passed on, another error is a panic.
Models rings/src/linear/matrix.rs:1442-1453 and 1460-1474. -/
def passNotSquare {β γ : Type} (f : β → Option γ) : Except MatErr β → Option (Except MatErr γ)
  | .ok m => (f m).map .ok
  | .error .notSquare => some (.error .notSquare)
  | .error _ => none

/-- Models rings/src/linear/matrix.rs:1446-1448. -/
def minPolyOf (r : SmithResult (List α)) : Option (List α) := do
  assertThat (decide (0 < r.k))
  r.s.get (r.k - 1) (r.k - 1)

/-- Models `minimal_polynomial`, rings/src/linear/matrix.rs:1441-1453. -/
def DomainOps.minimalPolynomial (m : Mat α) : Option (Except MatErr (List α)) :=
  (S.presentationMatrix m).bind (passNotSquare fun p => (S.polyBezout.smith p).bind minPolyOf)

/-- The product of the first `k` diagonal entries. Models rings/src/linear/matrix.rs:1464-1468. -/
def DomainOps.charPolyOf (r : SmithResult (List α)) : Option (List α) := do
  assertThat (decide (0 < r.k))
  (List.range r.k).foldlM (fun p i => (r.s.get i i).map fun x => S.toRingOps.poly.mul p x) S.toRingOps.poly.one

/-- Models `characteristic_polynomial`, rings/src/linear/matrix.rs:1455-1474. -/
def DomainOps.characteristicPolynomial (m : Mat α) : Option (Except MatErr (List α)) :=
  (S.presentationMatrix m).bind (passNotSquare fun p => (S.polyBezout.smith p).bind S.charPolyOf)

end CharPoly

section GramSchmidt
variable {α : Type} (S : DomainOps α) (conj : α → α)

/-- Models `conjugate`, rings/src/linear/matrix.rs:1478-1480. -/
def matConjugate (m : Mat α) : Mat α := m.applyMap conj

/-- Models `conjugate_transpose`, rings/src/linear/matrix.rs:1482-1484. -/
def matConjTranspose (m : Mat α) : Mat α := (matConjugate conj m).transposed

/-- Models `inner_product`, rings/src/linear/matrix.rs:1489-1491. -/
def DomainOps.innerProduct (a b : Mat α) : Option α := S.matDot a (matConjugate conj b)

/-- `inner_product(&mat.get_row(i), &mat.get_row(j))`. -/
def DomainOps.rowInner (m : Mat α) (i j : Nat) : Option α := do
  let a ← m.getRow i
  let b ← m.getRow j
  S.innerProduct conj a b

/-- The body of the inner loop. Models rings/src/linear/matrix.rs:1505-1525; the pair is `(mat, lt)`. -/
def DomainOps.gramEntry (i : Nat) (st : Mat α × Mat α) (j : Nat) : Option (Mat α × Mat α) := do
  let x ← S.rowInner conj st.1 i j
  let y ← S.rowInner conj st.1 j j
  let l ← unwrapDiv (S.div x y)
  S.applyBoth (.addRowMul i j (S.neg l)) st

/-- The body of the outer loop. Models rings/src/linear/matrix.rs:1504-1526. -/
def DomainOps.gramRow (st : Mat α × Mat α) (i : Nat) : Option (Mat α × Mat α) :=
  (List.range i).foldlM (S.gramEntry conj i) st

/-- The debug assertion that the rows are orthogonal. Models rings/src/linear/matrix.rs:1528-1534. -/
def DomainOps.gramCheck (m : Mat α) : Option Bool :=
  (List.range m.rows).allM fun i => (rangeFrom (i + 1) m.rows).allM fun j => (S.rowInner conj m i j).map S.isZero

/-- Models `gram_schmidt_row_orthogonalization_algorithm`, rings/src/linear/matrix.rs:1496-1540, with both debug assertions. Returns
`(lt, mat)`. -/
def DomainOps.gramSchmidtRow (m : Mat α) : Option (Mat α × Mat α) := do
  let lt ← S.matIdent m.rows
  let st ← (List.range m.rows).foldlM (S.gramRow conj) (m, lt)
  let ok ← S.gramCheck conj st.1
  assertThat ok
  let p ← S.matMulUnwrap st.2 m
  let eq ← S.matEqual st.1 p
  assertThat eq
  some (st.2, st.1)

/-- Models `gram_schmidt_col_orthogonalization_algorithm`, rings/src/linear/matrix.rs:1543-1549. -/
def DomainOps.gramSchmidtCol (m : Mat α) : Option (Mat α × Mat α) :=
  (S.gramSchmidtRow conj m.transposed).map fun r => (r.2.transposed, r.1.transposed)

/-- The body of the loop of `lq_decomposition_algorithm`. Models rings/src/linear/matrix.rs:1570-1585; `sqrt` is `nth_root(_, 2)`, which
may fail. -/
def DomainOps.lqRow (sqrt : α → Option α) (st : Mat α × Mat α) (r : Nat) : Option (Mat α × Mat α) := do
  let l ← S.rowInner conj st.1 r r
  let s ← sqrt l
  let i ← unwrapDiv (S.inv s)
  S.applyBoth (.unitMul r i) st

/-- Models `lq_decomposition_algorithm`, rings/src/linear/matrix.rs:1564-1595, with its debug assertion. Returns `(lt, mat)`. -/
def DomainOps.lqDecomposition (sqrt : α → Option α) (m : Mat α) : Option (Mat α × Mat α) := do
  let g ← S.gramSchmidtRow conj m
  let st ← (List.range g.2.rows).foldlM (S.lqRow conj sqrt) (g.2, g.1)
  let one ← S.matIdent st.1.rows
  let p ← S.matMulUnwrap st.1 (matConjugate conj st.1.transposed)
  let eq ← S.matEqual one p
  assertThat eq
  some (st.2, st.1)

/-- Models `qr_decomposition_algorithm`, rings/src/linear/matrix.rs:1598-1604. -/
def DomainOps.qrDecomposition (sqrt : α → Option α) (m : Mat α) : Option (Mat α × Mat α) :=
  (S.lqDecomposition conj sqrt m.transposed).map fun r => (r.2.transposed, r.1.transposed)

end GramSchmidt

end Verif.Rings
