import Verif.Model.Matrix
import Verif.Model.FiniteField
import Verif.Model.FinitePoly
import Verif.Model.Factored
import Verif.Model.Perm

/-!
# The extended binary Golay code and modular permutations

Models combinatorics/src/linear_codes/binary_golay_code.rs and combinatorics/src/modular_permutations.rs. `none` is a panic; failed
`assert!` and `debug_assert!` are panics. Elements of `Modulo<2>` are the representatives `0` and `1`. A `HashMap` is a list of pairs with
different keys; a `HashSet` is a list without repetitions, and each iteration over it sees the elements in an arbitrary order.
-/

namespace Verif.Golay
open Verif.Rings

/-- Models `Vector24`, combinatorics/src/linear_codes/binary_golay_code.rs:21-32. The 32 bit mask is a natural number; all masks that the
functions build are below `2 ^ 24`. -/
structure Vector24 where
  points : Nat
  deriving DecidableEq, Repr

/-- Models `new`, combinatorics/src/linear_codes/binary_golay_code.rs:49-58. The closure may panic. -/
def Vector24.new (contains : Nat → Option Bool) : Option Vector24 :=
  ((List.range 24).foldlM (fun p i => (contains i).map fun b => if b then p ||| 1 <<< i else p) 0).map Vector24.mk

/-- Models `zero`, combinatorics/src/linear_codes/binary_golay_code.rs:59-61. -/
def Vector24.zero : Vector24 := ⟨0⟩

/-- Models `from_points`, combinatorics/src/linear_codes/binary_golay_code.rs:62-69. -/
def Vector24.fromPoints (pts : List Nat) : Option Vector24 :=
  (pts.foldlM (fun data i => do
    assertThat (i < 24)
    some (data ||| 1 <<< i)) 0).map Vector24.mk

/-- The test of `contains`. Models combinatorics/src/linear_codes/binary_golay_code.rs:75. -/
def Vector24.has (v : Vector24) (pt : Nat) : Bool := v.points &&& (1 <<< pt) != 0

/-- Models `contains`, combinatorics/src/linear_codes/binary_golay_code.rs:73-76. -/
def Vector24.contains (v : Vector24) (pt : Nat) : Option Bool := do
  assertThat (pt < 24)
  some (v.has pt)

/-- Models `points`, combinatorics/src/linear_codes/binary_golay_code.rs:70-72 (the assertion of `contains` holds for `0..24`). -/
def Vector24.pts (v : Vector24) : List Nat := (List.range 24).filter v.has

/-- Models `into_row`, combinatorics/src/linear_codes/binary_golay_code.rs:77-85. -/
def Vector24.intoRow (v : Vector24) : Option (Mat (Fin 2)) :=
  Mat.construct 1 24 fun r c => do
    assertThat (r == 0)
    let b ← v.contains c
    some (if b then 1 else 0)

/-- Models `from_row`, combinatorics/src/linear_codes/binary_golay_code.rs:86-92; the inner `none` is `None`. -/
def Vector24.fromRow (m : Mat (Fin 2)) : Option (Option Vector24) :=
  if m.rows == 1 && m.cols == 24 then (Vector24.new fun i => (m.get 0 i).map fun x => x == 1).map some else some none

/-- Models `into_col`, combinatorics/src/linear_codes/binary_golay_code.rs:93-95. -/
def Vector24.intoCol (v : Vector24) : Option (Mat (Fin 2)) := v.intoRow.map Mat.transposed

/-- Models `from_col`, combinatorics/src/linear_codes/binary_golay_code.rs:96-98. -/
def Vector24.fromCol (m : Mat (Fin 2)) : Option (Option Vector24) := Vector24.fromRow m.transposed

/-- Models `into_mat`, combinatorics/src/linear_codes/binary_golay_code.rs:99-105. -/
def Vector24.intoMat (v : Vector24) : Option (Mat (Fin 2)) :=
  Mat.construct 4 6 fun r c => do
    let b ← v.contains (c + 6 * r)
    some (if b then 1 else 0)

/-- Models `from_mat`, combinatorics/src/linear_codes/binary_golay_code.rs:106-116. -/
def Vector24.fromMat (m : Mat (Fin 2)) : Option (Option Vector24) :=
  if m.rows == 4 && m.cols == 6 then (Vector24.new fun i => (m.get (i / 6) (i % 6)).map fun x => x == 1).map some else some none

/-- Models `add`, combinatorics/src/linear_codes/binary_golay_code.rs:119-126. -/
def Vector24.add (a b : Vector24) : Vector24 := ⟨a.points ^^^ b.points⟩

/-- Models `bitand`, combinatorics/src/linear_codes/binary_golay_code.rs:128-135. -/
def Vector24.and (a b : Vector24) : Vector24 := ⟨a.points &&& b.points⟩

/-- Models `bitor`, combinatorics/src/linear_codes/binary_golay_code.rs:137-144. -/
def Vector24.or (a b : Vector24) : Vector24 := ⟨a.points ||| b.points⟩

/-- Models `weight`, combinatorics/src/linear_codes/binary_golay_code.rs:146-156 (the assertion of `contains` holds for `0..24`). -/
def Vector24.weight (v : Vector24) : Nat := (List.range 24).foldl (fun t i => if v.has i then t + 1 else t) 0

/-- The three messages of combinatorics/src/linear_codes/binary_golay_code.rs:269-298. -/
inductive Err
  | wrongDimensions
  | notFullRank
  | lowWeight
  deriving DecidableEq, Repr

/-- Models `ExtendedBinaryGolayCode`, combinatorics/src/linear_codes/binary_golay_code.rs:262-266. -/
structure Code where
  blocks : List (Vector24 × Vector24)

/-- `HashMap::insert`, used in combinatorics/src/linear_codes/binary_golay_code.rs:295. -/
def mapInsert (k v : Vector24) : List (Vector24 × Vector24) → List (Vector24 × Vector24)
  | [] => [(k, v)]
  | e :: es => if e.1 = k then (k, v) :: es else e :: mapInsert k v es

/-- `HashMap::get`, used in combinatorics/src/linear_codes/binary_golay_code.rs:311. -/
def mapGet (k : Vector24) : List (Vector24 × Vector24) → Option Vector24
  | [] => none
  | e :: es => if e.1 = k then some e.2 else mapGet k es

/-- `itertools::combinations(k)` (an external library): the sublists of length `k`, in the lexicographic order of positions. Used in
combinatorics/src/linear_codes/binary_golay_code.rs:294. -/
def combinations : Nat → List Nat → List (List Nat)
  | 0, _ => [[]]
  | _ + 1, [] => []
  | k + 1, x :: xs => (combinations k xs).map (x :: ·) ++ combinations (k + 1) xs

/-- The sum of the basis vectors with coefficient `true`. Models combinatorics/src/linear_codes/binary_golay_code.rs:284-289. -/
def spanVector (basis : List Vector24) (coeffs : List Bool) : Option Vector24 :=
  coeffs.zipIdx.foldlM (fun v ic => if ic.1 then (basis[ic.2]?).map v.add else some v) Vector24.zero

/-- The insertions for one octad. Models combinatorics/src/linear_codes/binary_golay_code.rs:294-296. -/
def insertOctad (v : Vector24) (blocks : List (Vector24 × Vector24)) : Option (List (Vector24 × Vector24)) :=
  (combinations 5 v.pts).foldlM (fun bl pts => (Vector24.fromPoints pts).map fun k => mapInsert k v bl) blocks

/-- The loop over the span. Models combinatorics/src/linear_codes/binary_golay_code.rs:283-298. -/
def spanLoop (basis : List Vector24) :
    List (List Bool) → List (Vector24 × Vector24) → Option (Except Err (List (Vector24 × Vector24)))
  | [], blocks => some (.ok blocks)
  | coeffs :: rest, blocks => do
    let v ← spanVector basis coeffs
    let wt := v.weight
    if 0 < wt && wt < 8 then some (.error .lowWeight)
    else if wt == 8 then do
      let blocks' ← insertOctad v blocks
      spanLoop basis rest blocks'
    else spanLoop basis rest blocks

/-- `m.rank()` over `Modulo<2>`. Models combinatorics/src/linear_codes/binary_golay_code.rs:273. -/
def rank2 (m : Mat (Fin 2)) : Option Nat := (moduloOps 2 (by decide)).fieldEuc.bezout.matRank m

/-- `Vector24::from_row(&m.get_row(i)).unwrap()`. Models combinatorics/src/linear_codes/binary_golay_code.rs:277. -/
def basisVector (m : Mat (Fin 2)) (i : Nat) : Option Vector24 := do
  let row ← m.getRow i
  let v ← Vector24.fromRow row
  v

/-- Models `from_row_basis_matrix`, combinatorics/src/linear_codes/binary_golay_code.rs:269-301. -/
def fromRowBasisMatrix (m : Mat (Fin 2)) : Option (Except Err Code) :=
  if m.rows != 12 || m.cols != 24 then some (.error .wrongDimensions)
  else do
    let k ← rank2 m
    if k != 12 then some (.error .notFullRank)
    else do
      let basis ← (List.range 12).mapM (basisVector m)
      let r ← spanLoop basis (Factored.multiCartesianProduct (List.replicate 12 [false, true])) []
      match r with
      | .error e => some (.error e)
      | .ok blocks => do
        assertThat (blocks.length == 42504)
        some (.ok ⟨blocks⟩)

/-- Models `from_col_basis_matrix`, combinatorics/src/linear_codes/binary_golay_code.rs:303-305. -/
def fromColBasisMatrix (m : Mat (Fin 2)) : Option (Except Err Code) := fromRowBasisMatrix m.transposed

/-- Models `complete_octad`, combinatorics/src/linear_codes/binary_golay_code.rs:309-317. -/
def Code.completeOctad (g : Code) (fivePts : Vector24) : Option Vector24 := do
  assertThat (fivePts.weight == 5)
  let oct ← mapGet fivePts g.blocks
  assertThat (oct.weight == 8)
  some oct

/-- The closure that moves a point of the octad out of `other_pts`. Models
combinatorics/src/linear_codes/binary_golay_code.rs:335-339. -/
def takePoint (st : List Nat × List Nat) (pt : Nat) : Option (List Nat × List Nat) := do
  assertThat (st.1.contains pt)
  some (st.1.erase pt, st.2 ++ [pt])

/-- One round of the loop of `complete_sextet`; `order i` is the iteration order of the hash set in round `i`. Models
combinatorics/src/linear_codes/binary_golay_code.rs:326-341. -/
def Code.sextetStep (g : Code) (four : Vector24) (order : Nat → List Nat → List Nat) (st : List Nat × List Vector24) (i : Nat) :
    Option (List Nat × List Vector24) := do
  assertThat (st.1.length == 20 - 4 * i)
  let five ← Vector24.fromPoints ((order i st.1).take 1 ++ four.pts)
  let octad ← g.completeOctad five
  let taken ← (octad.pts.filter fun pt => !four.has pt).foldlM takePoint (st.1, [])
  let part ← Vector24.fromPoints taken.2
  some (taken.1, st.2.set (i + 1) part)

/-- Models `complete_sextet`, combinatorics/src/linear_codes/binary_golay_code.rs:319-344. The result is the array `parts`. -/
def Code.completeSextet (g : Code) (order : Nat → List Nat → List Nat) (four : Vector24) : Option (List Vector24) := do
  let other := four.pts.foldl (fun o pt => o.erase pt) (List.range 24)
  let st ← (List.range 5).foldlM (g.sextetStep four order) (other, (List.replicate 6 Vector24.zero).set 0 four)
  assertThat st.1.isEmpty
  some st.2

/-- One ordering: `parts[i] = self.parts[j]`. Models combinatorics/src/linear_codes/binary_golay_code.rs:213-216. -/
def orderParts (parts : List Vector24) (perm : List Nat) : Option (List Vector24) :=
  perm.zipIdx.foldlM (fun out ji => do
    let p ← parts[ji.1]?
    assertThat (decide (ji.2 < out.length))
    some (out.set ji.2 p)) (List.replicate 6 Vector24.zero)

/-- Models `orderings`, combinatorics/src/linear_codes/binary_golay_code.rs:211-222. -/
def orderings (parts : List Vector24) : Option (List (List Vector24)) :=
  (Verif.Perm.lexArrangements 6 (List.range 6)).mapM (orderParts parts)

/-- Models `foursome`, combinatorics/src/linear_codes/binary_golay_code.rs:194-200. -/
def foursome (parts : List Vector24) (i : Nat) : Option Vector24 := do
  assertThat (decide (i < 6))
  parts[i]?

/-- Models `take_unique_pt`, combinatorics/src/linear_codes/binary_golay_code.rs:388-393. -/
def takeUniquePt (v : Vector24) : Option Nat :=
  match v.pts with
  | [] => none
  | pt :: rest => do
    assertThat rest.head?.isNone
    some pt

/-- The hexacodeword `(0, 1, alpha, ?, ?, ?)`. Models combinatorics/src/linear_codes/binary_golay_code.rs:396-417. -/
def hexacode : Quat → Quat × Quat × Quat
  | .zero => (.one, .alpha, .beta)
  | .one => (.zero, .beta, .alpha)
  | .alpha => (.beta, .zero, .one)
  | .beta => (.alpha, .one, .zero)

/-- `labels[p] = l` for an array of length 24; an index out of range is a panic. -/
def setLabel (labels : List Quat) (p : Nat) (l : Quat) : Option (List Quat) := do
  assertThat (decide (p < labels.length))
  some (labels.set p l)

/-- `debug_assert_eq!(labels[p], l)`. -/
def checkLabel (labels : List Quat) (p : Nat) (l : Quat) : Option Unit := do
  let x ← labels[p]?
  assertThat (decide (x = l))

/-- One round of the loop over `T3, T4, T5, T6`. Models combinatorics/src/linear_codes/binary_golay_code.rs:436-448. -/
def Code.labelRound (g : Code) (t0 t2345 : Vector24) (x y : Nat) (labels : List Quat) (lw : Quat × Nat) : Option (List Quat) := do
  let five ← Vector24.fromPoints (t0.pts.filter (fun p => p != x) ++ [y, lw.2])
  let octad ← g.completeOctad five
  (octad.and t2345).pts.foldlM (fun ls p => setLabel ls p lw.1) labels

/-- One round of the last loop. Models combinatorics/src/linear_codes/binary_golay_code.rs:468-478. -/
def Code.labelFinal (g : Code) (t4 t5 : Vector24) (finalFour : List Nat) (labels : List Quat) (q : Nat) : Option (List Quat) := do
  let l ← labels[q]?
  let five ← Vector24.fromPoints (finalFour ++ [q])
  let octad ← g.completeOctad five
  octad.pts.foldlM (fun ls p => if !t4.has p && !t5.has p then setLabel ls p l else some ls) labels

/-- The labels of the points of a foursome. -/
def labelsOf (labels : List Quat) (t : Vector24) : Option (List Quat) := t.pts.mapM fun p => labels[p]?

/-- The counts of one foursome. Models combinatorics/src/linear_codes/binary_golay_code.rs:489-507. -/
def checkFoursome (labels : List Quat) (t : Vector24) : Option Unit := do
  let ls ← labelsOf labels t
  assertThat (ls.count .zero == 1)
  assertThat (ls.count .one == 1)
  assertThat (ls.count .alpha == 1)
  assertThat (ls.count .beta == 1)

/-- `final_four`. Models combinatorics/src/linear_codes/binary_golay_code.rs:455-465. -/
def finalFour (labels : List Quat) (t4 t5 : Vector24) : Option (List Nat) := do
  let a ← t5.pts.filterM fun p => (labels[p]?).map fun l => decide (l ≠ .zero)
  let b ← t4.pts.filterM fun p => (labels[p]?).map fun l => decide (l = .zero)
  some (a ++ b)

/-- The seven assertions after the last loop. Models combinatorics/src/linear_codes/binary_golay_code.rs:479-485. -/
def checkSeven (labels : List Quat) (x y z : Nat) (lw : List (Quat × Nat)) : Option Unit := do
  checkLabel labels x .zero
  checkLabel labels y .zero
  checkLabel labels z .one
  lw.forM fun p => checkLabel labels p.2 p.1

/-- Models `complete_labelling`, combinatorics/src/linear_codes/binary_golay_code.rs:346-514. The result is the array `labels`. The
assertion that the sextet belongs to this object (a comparison of addresses) is left out: the theorems speak about sextets of the code. -/
def Code.completeLabelling (g : Code) (sextet : List Vector24) (x y z w : Nat) (alpha : Quat) : Option (List Quat) := do
  let t0 ← foursome sextet 0
  let t1 ← foursome sextet 1
  let t2 ← foursome sextet 2
  assertThat (← t0.contains x)
  assertThat (← t1.contains y)
  assertThat (← t1.contains z)
  assertThat (← t2.contains w)
  assertThat (decide (y ≠ z))
  let labels := List.replicate 24 Quat.zero
  checkLabel labels x .zero
  checkLabel labels y .zero
  let labels ← setLabel labels z .one
  let labels ← setLabel labels w alpha
  let t3 ← foursome sextet 3
  let t4 ← foursome sextet 4
  let t5 ← foursome sextet 5
  let (beta, gamma, delta) := hexacode alpha
  let five ← Vector24.fromPoints (t0.pts.filter (fun p => p != x) ++ [z, w])
  let octad ← g.completeOctad five
  let w2 ← takeUniquePt (octad.and t2)
  let w3 ← takeUniquePt (octad.and t3)
  let w4 ← takeUniquePt (octad.and t4)
  let w5 ← takeUniquePt (octad.and t5)
  assertThat (decide (w2 = w))
  let labels ← setLabel labels w3 beta
  let labels ← setLabel labels w4 gamma
  let labels ← setLabel labels w5 delta
  let t2345 := ((t2.or t3).or t4).or t5
  assertThat (t2345.weight == 16)
  let lw := [(alpha, w2), (beta, w3), (gamma, w4), (delta, w5)]
  let labels ← lw.foldlM (g.labelRound t0 t2345 x y) labels
  lw.forM fun p => checkLabel labels p.2 p.1
  let four ← finalFour labels t4 t5
  assertThat (four.length == 4)
  let labels ← t3.pts.foldlM (g.labelFinal t4 t5 four) labels
  checkSeven labels x y z lw
  for i in List.range 6 do
    checkFoursome labels (← foursome sextet i)
  some labels

/-- The row of a label. Models combinatorics/src/linear_codes/binary_golay_code.rs:244-249. -/
def rowOfLabel : Quat → Nat
  | .zero => 0
  | .one => 1
  | .alpha => 2
  | .beta => 3

/-- The entries written for one point. Models combinatorics/src/linear_codes/binary_golay_code.rs:242-253. -/
def mogPoint (labels : List Quat) (c : Nat) (st : List Nat × List Nat) (p : Nat) : Option (List Nat × List Nat) := do
  let l ← labels[p]?
  let q := c + 6 * rowOfLabel l
  assertThat (decide (p < st.1.length))
  assertThat (decide (q < st.2.length))
  some (st.1.set p q, st.2.set q p)

/-- Models `mog_isomorphism`, combinatorics/src/linear_codes/binary_golay_code.rs:235-259. -/
def mogIsomorphism (sextet : List Vector24) (labels : List Quat) : Option (List Nat × List Nat) := do
  let st ← (List.range 6).foldlM (fun st c => do
    let t ← foursome sextet c
    t.pts.foldlM (mogPoint labels c) st) (List.replicate 24 0, List.replicate 24 0)
  let toMog ← Verif.Perm.Fixed.new st.1
  let fromMog ← Verif.Perm.Fixed.new st.2
  some (toMog, fromMog)

/-- The closure of `ebgc_from_string`. Models combinatorics/src/linear_codes/binary_golay_code.rs:523-527. -/
def digitOf : Char → Option (Fin 2)
  | '0' => some 0
  | '1' => some 1
  | _ => none

/-- The matrix of `ebgc_from_string`. Models combinatorics/src/linear_codes/binary_golay_code.rs:517-528. The rows of the literal are given
as separate strings (`values.split("\\n")`); all characters are ASCII, so `len` counts them. -/
def matrixOfRows (rows : List String) : Option (Mat (Fin 2)) := do
  rows.forM fun row => assertThat (row.toList.length == 24)
  Mat.construct 12 24 fun r c => do
    let row ← rows[r]?
    let ch ← row.toList[c]?
    digitOf ch

/-- Models `ebgc_from_string`, combinatorics/src/linear_codes/binary_golay_code.rs:517-530. -/
def ebgcFromRows (rows : List String) : Option Code := do
  let m ← matrixOfRows rows
  let r ← fromRowBasisMatrix m
  match r with
  | .ok g => some g
  | .error _ => none

/-- The literal of `ebgc_wiki`. Models combinatorics/src/linear_codes/binary_golay_code.rs:532-548. -/
def wikiRows : List String := [
  "100000000000100111110001",
  "010000000000010011111010",
  "001000000000001001111101",
  "000100000000100100111110",
  "000010000000110010011101",
  "000001000000111001001110",
  "000000100000111100100101",
  "000000010000111110010010",
  "000000001000011111001001",
  "000000000100001111100110",
  "000000000010010101010111",
  "000000000001101010101011"]

/-- The literal of `ebgc_qr11`. Models combinatorics/src/linear_codes/binary_golay_code.rs:550-566. -/
def qr11Rows : List String := [
  "100000000000101000111011",
  "010000000000110100011101",
  "001000000000011010001111",
  "000100000000101101000111",
  "000010000000110110100011",
  "000001000000111011010001",
  "000000100000011101101001",
  "000000010000001110110101",
  "000000001000000111011011",
  "000000000100100011101101",
  "000000000010010001110111",
  "000000000001111111111110"]

/-- The literal of `ebgc_mog`. Models combinatorics/src/linear_codes/binary_golay_code.rs:568-584. -/
def mogRows : List String := [
  "110000110000110000110000",
  "101000101000101000101000",
  "100100100100100100100100",
  "100010100010100010100010",
  "100001100001100001100001",
  "010000101111100000100000",
  "010000100000101111100000",
  "010000100000100000101111",
  "001000110100100010100001",
  "001000100001110100100010",
  "001000110100010001010010",
  "001000010010110100010001"]

/-- Models `ebgc_wiki`, combinatorics/src/linear_codes/binary_golay_code.rs:532-548. -/
def ebgcWiki : Option Code := ebgcFromRows wikiRows

/-- Models `ebgc_qr11`, combinatorics/src/linear_codes/binary_golay_code.rs:550-566. -/
def ebgcQr11 : Option Code := ebgcFromRows qr11Rows

/-- Models `ebgc_mog`, combinatorics/src/linear_codes/binary_golay_code.rs:568-584. -/
def ebgcMog : Option Code := ebgcFromRows mogRows

/-- Models `modular_permutation`, combinatorics/src/modular_permutations.rs:4-12. An element of `Modulo<N>` is its stored number `x`;
`none` is `Err`. -/
def modularPermutation (n : Nat) (f : Nat → Nat) : Option (List Nat) :=
  Verif.Perm.Fixed.new ((List.range n).map fun i => f (i % n))

end Verif.Golay
