import Verif.Proofs.MatrixPrim
import Verif.Props.Polynomial

/-! # C65–C73: matrices over rings, Hermite normal forms -/

namespace Verif.Rings

/-! Concrete matrices used to show that the hypotheses below are met. -/

/-- a transposed matrix with flipped rows: it denotes `!![2, 4; 1, 3]` -/
def exMat : Mat Int := ⟨2, 2, true, true, false, [1, 2, 3, 4]⟩

theorem exMat_denotes : exMat.Denotes (id : Int → Int) !![2, 4; 1, 3] := by
  refine ⟨rfl, rfl, rfl, ?_⟩
  intro i j
  fin_cases i <;> fin_cases j <;> exact ⟨_, rfl, rfl⟩

/-- a 3 × 2 matrix of rank one -/
def exTall : Mat Int := ⟨3, 2, false, false, false, [0, 4, 0, 6, 0, -10]⟩

theorem exTall_denotes : exTall.Denotes (id : Int → Int) !![0, 4; 0, 6; 0, -10] := by
  refine ⟨rfl, rfl, rfl, ?_⟩
  intro i j
  fin_cases i <;> fin_cases j <;> exact ⟨_, rfl, rfl⟩

/-! ## C65: storage -/

/-- C65: `construct(r, c, f)` is the `r × c` matrix with entries `f(i, j)`. -/
theorem C65_construct {α R : Type} (v : α → R) (r c : Nat) (f : Nat → Nat → α) :
    ∃ m, Mat.construct r c (fun i j => some (f i j)) = some m ∧
      m.Denotes v (Matrix.of fun (i : Fin r) (j : Fin c) => v (f i j)) := by
  obtain ⟨m, e, hm, -⟩ := Mat.construct_rep (R := r) (C := c) (mk := fun i j => some (f i j)) (f := f) fun _ _ _ _ => rfl
  exact ⟨m, e, hm.denotes⟩

/-- C65: `from_rows` gives the matrix with these rows. -/
theorem C65_from_rows {α R : Type} (v : α → R) (r c : Nat) (rowsElems : List (List α)) (hr : rowsElems.length = r + 1)
    (hc : ∀ l ∈ rowsElems, l.length = c) :
    ∃ m, Mat.fromRows rowsElems = some m ∧ ∃ A : Matrix (Fin (r + 1)) (Fin c) R, m.Denotes v A ∧
      ∀ (i : Fin (r + 1)) (j : Fin c), ∃ row x, rowsElems[(i : Nat)]? = some row ∧ row[(j : Nat)]? = some x ∧ A i j = v x := by
  obtain ⟨m, e, h1, h2, h3, h4⟩ := Mat.fromRows_spec rowsElems c (by rintro rfl; simp at hr) hc
  have hlen : ∀ (i : Fin (r + 1)), (i : Nat) < rowsElems.length := fun i => by rw [hr]; exact i.2
  have hlen' : ∀ (i : Fin (r + 1)) (j : Fin c), (j : Nat) < (rowsElems[(i : Nat)]'(hlen i)).length := fun i j => by
    rw [hc _ (List.getElem_mem _)]; exact j.2
  refine ⟨m, e, Matrix.of fun i j => v ((rowsElems[(i : Nat)]'(hlen i))[(j : Nat)]'(hlen' i j)), ⟨by rw [h1, hr], h2, h3, ?_⟩, ?_⟩
  · intro i j
    exact ⟨_, h4 i j (hlen i) (hlen' i j), rfl⟩
  · intro i j
    exact ⟨_, _, List.getElem?_eq_getElem (hlen i), List.getElem?_eq_getElem (hlen' i j), rfl⟩

/-- C65: `at(r, c)` gives an `InvalidIndex` error exactly outside the matrix, and never panics on a matrix that satisfies its
length invariant. -/
theorem C65_at {α R : Type} {v : α → R} {m : Mat α} {r c : Nat} {A : Matrix (Fin r) (Fin c) R} (h : m.Denotes v A) (i j : Nat) :
    (r ≤ i ∨ c ≤ j → m.at i j = some (.error .invalidIndex)) ∧
    (∀ (hi : i < r) (hj : j < c), ∃ x, m.at i j = some (.ok x) ∧ v x = A ⟨i, hi⟩ ⟨j, hj⟩) := by
  refine ⟨?_, fun hi hj => h.entry ⟨i, hi⟩ ⟨j, hj⟩⟩
  intro hij
  unfold Mat.at
  rw [h.rows, h.cols]
  rcases hij with h1 | h1
  · rw [if_pos h1]
  · by_cases h2 : i ≥ r
    · rw [if_pos h2]
    · rw [if_neg h2, if_pos h1]

/-- C65: writing through `at_mut(i, j)` changes the entry `(i, j)` and no other, also in a transposed or flipped matrix. -/
theorem C65_at_mut {α R : Type} {v : α → R} {m : Mat α} {r c : Nat} {A : Matrix (Fin r) (Fin c) R} (h : m.Denotes v A) (i : Fin r)
    (j : Fin c) (x : α) :
    ∃ m', m.atMutSet i j x = some (.ok m') ∧ m'.Denotes v (A.updateRow i (Function.update (fun l => A i l) j (v x))) := by
  obtain ⟨y, hy, -⟩ := h.entry i j
  obtain ⟨f, hf, hvf⟩ := (Mat.denotes_iff y).1 h
  obtain ⟨m', e, hm'⟩ := hf.set i.2 j.2 x
  refine ⟨m', ?_, hm'.denotes' fun k l => ?_⟩
  · unfold Mat.set at e
    cases hs : m.atMutSet i j x with
    | none => rw [hs] at e; simp [unwrapMat] at e
    | some z =>
      rw [hs] at e
      cases z with
      | error _ => simp [unwrapMat] at e
      | ok w => simp only [unwrapMat, Option.some.injEq] at e; rw [e]
  · rw [Matrix.updateRow_apply]
    by_cases hk : k = i
    · subst hk
      by_cases hl : l = j
      · subst hl; simp
      · rw [if_neg (by rw [Fin.val_inj, Fin.val_inj]; tauto), hvf, if_pos rfl, Function.update_of_ne hl]
    · rw [if_neg (by rw [Fin.val_inj, Fin.val_inj]; tauto), hvf, if_neg hk]

/-- C65: `transpose`, `flip_rows`, `flip_cols` give the transposed matrix and the matrix with its rows or columns in reverse order. -/
theorem C65_views {α R : Type} {v : α → R} {m : Mat α} {r c : Nat} {A : Matrix (Fin r) (Fin c) R} (h : m.Denotes v A) :
    m.transposed.Denotes v A.transpose ∧ m.rowsFlipped.Denotes v (A.submatrix Fin.rev id) ∧
      m.colsFlipped.Denotes v (A.submatrix id Fin.rev) :=
  ⟨h.transposed, h.rowsFlipped, h.colsFlipped⟩

/-- C65: `apply_map(f)` applies `f` to every entry. -/
theorem C65_apply_map {α β R T : Type} {v : α → R} {w : β → T} {m : Mat α} {r c : Nat} {A : Matrix (Fin r) (Fin c) R}
    (h : m.Denotes v A) (g : α → β) (φ : R → T) (hg : ∀ x, w (g x) = φ (v x)) : (m.applyMap g).Denotes w (A.map φ) :=
  h.applyMap g φ hg

/-- C65: `submatrix(rows, cols)` picks these rows and columns, in this order and with repetitions. -/
theorem C65_submatrix {α R : Type} {v : α → R} {m : Mat α} {r c : Nat} {A : Matrix (Fin r) (Fin c) R} (h : m.Denotes v A)
    (rs : List (Fin r)) (cs : List (Fin c)) :
    ∃ m', m.submatrix (rs.map Fin.val) (cs.map Fin.val) = some m' ∧
      m'.Denotes v (A.submatrix (fun i : Fin rs.length => rs[i]) (fun j : Fin cs.length => cs[j])) := by
  apply h.submatrix _ _ (by simp) (by simp)
  · intro i
    rw [List.getElem?_map, List.getElem?_eq_getElem i.2]
    rfl
  · intro i
    rw [List.getElem?_map, List.getElem?_eq_getElem i.2]
    rfl

/-- C65: a submatrix with an index out of range is a panic. -/
theorem C65_submatrix_panics {α R : Type} {v : α → R} {m : Mat α} {r c : Nat} {A : Matrix (Fin r) (Fin c) R} (h : m.Denotes v A)
    (i j : Nat) (hij : r ≤ i ∨ c ≤ j) : m.submatrix [i] [j] = none := by
  unfold Mat.submatrix
  have : m.get i j = none := by
    unfold Mat.get
    rw [(C65_at h i j).1 hij]
    rfl
  simp [this]

example : ∃ m', exMat.atMutSet 0 1 7 = some (.ok m') ∧ m'.at 0 1 = some (.ok 7) ∧ m'.at 1 1 = some (.ok 3) :=
  ⟨⟨2, 2, true, true, false, [1, 2, 3, 7]⟩, by decide, by decide, by decide⟩
example := C65_at_mut exMat_denotes 0 1 7
example := C65_submatrix exTall_denotes [2, 0, 2] [1]
example := (C65_at exTall_denotes 1 2).1 (.inr (le_refl _))
example := C65_from_rows (id : Int → Int) 1 3 [[1, 2, 3], [4, 5, 6]] rfl (by simp)

/-! ## C66: matrix arithmetic -/

/-- C66: `equal` decides equality of the matrices. -/
theorem C66_equal {α R : Type} [CommRing R] {S : SemiRingOps α} {v : α → R} (h : S.Models v) {a b : Mat α} {r c : Nat}
    {A B : Matrix (Fin r) (Fin c) R} (ha : a.Denotes v A) (hb : b.Denotes v B) :
    ∃ e, S.matEqual a b = some e ∧ (e = true ↔ A = B) := h.matEqual ha hb

/-- C66: matrices of different shapes are not equal. -/
theorem C66_equal_shape {α R : Type} {S : SemiRingOps α} {v : α → R} {a b : Mat α} {r c r' c' : Nat}
    {A : Matrix (Fin r) (Fin c) R} {B : Matrix (Fin r') (Fin c') R} (ha : a.Denotes v A) (hb : b.Denotes v B)
    (hd : r ≠ r' ∨ c ≠ c') : S.matEqual a b = some false :=
  SemiRingOps.matEqual_dim (by rw [ha.rows, ha.cols, hb.rows, hb.cols]; exact hd)

/-- C66: `zero`, `ident` and `diag` are the zero, the identity and the diagonal matrix. -/
theorem C66_constants {α R : Type} [CommRing R] {S : SemiRingOps α} {v : α → R} (h : S.Models v) (r c : Nat) (d : List α) :
    (∃ m, S.matZero r c = some m ∧ m.Denotes v (0 : Matrix (Fin r) (Fin c) R)) ∧
    (∃ m, S.matIdent r = some m ∧ m.Denotes v (1 : Matrix (Fin r) (Fin r) R)) ∧
    (∃ m, S.matDiag d = some m ∧ m.Denotes v (Matrix.diagonal fun i : Fin d.length => v d[i])) :=
  ⟨h.matZero r c, h.matIdent r, h.matDiag d⟩

/-- C66: `add` is the sum of matrices of the same shape. -/
theorem C66_add {α R : Type} [CommRing R] {S : SemiRingOps α} {v : α → R} (h : S.Models v) {a b : Mat α} {r c : Nat}
    {A B : Matrix (Fin r) (Fin c) R} (ha : a.Denotes v A) (hb : b.Denotes v B) :
    ∃ s, S.matAdd a b = some (.ok s) ∧ s.Denotes v (A + B) := h.matAdd ha hb

/-- C66: `add` of matrices of different shapes is a `DimMissmatch` error. -/
theorem C66_add_shape {α R : Type} {S : SemiRingOps α} {v : α → R} {a b : Mat α} {r c r' c' : Nat}
    {A : Matrix (Fin r) (Fin c) R} {B : Matrix (Fin r') (Fin c') R} (ha : a.Denotes v A) (hb : b.Denotes v B)
    (hd : r ≠ r' ∨ c ≠ c') : S.matAdd a b = some (.error .dimMissmatch) := by
  unfold SemiRingOps.matAdd
  rw [if_pos (by rw [ha.rows, ha.cols, hb.rows, hb.cols]; exact hd)]

/-- C66: `neg` is the negative. -/
theorem C66_neg {α R : Type} [CommRing R] {S : RingOps α} {v : α → R} (h : S.Models v) {a : Mat α} {r c : Nat}
    {A : Matrix (Fin r) (Fin c) R} (ha : a.Denotes v A) : ∃ s, S.matNeg a = some s ∧ s.Denotes v (-A) := h.matNeg ha

/-- C66: `mul_scalar` multiplies every entry. -/
theorem C66_mul_scalar {α R : Type} [CommRing R] {S : SemiRingOps α} {v : α → R} (h : S.Models v) {a : Mat α} {r c : Nat}
    {A : Matrix (Fin r) (Fin c) R} (ha : a.Denotes v A) (x : α) :
    ∃ s, S.matMulScalar a x = some s ∧ s.Denotes v (v x • A) := by
  obtain ⟨s, e, hs⟩ := h.matMulScalar ha x
  refine ⟨s, e, ?_⟩
  have : v x • A = A.map fun y => y * v x := by
    ext i j
    rw [Matrix.smul_apply, Matrix.map_apply, smul_eq_mul, mul_comm]
  rw [this]
  exact hs

/-- C66: `mul` is the matrix product. -/
theorem C66_mul {α R : Type} [CommRing R] {S : SemiRingOps α} {v : α → R} (h : S.Models v) {a b : Mat α} {r k c : Nat}
    {A : Matrix (Fin r) (Fin k) R} {B : Matrix (Fin k) (Fin c) R} (ha : a.Denotes v A) (hb : b.Denotes v B) :
    ∃ s, S.matMul a b = some (.ok s) ∧ s.Denotes v (A * B) := h.matMul ha hb

/-- C66: `mul` of matrices whose shapes do not fit is a `DimMissmatch` error. -/
theorem C66_mul_shape {α R : Type} {S : SemiRingOps α} {v : α → R} {a b : Mat α} {r c r' c' : Nat}
    {A : Matrix (Fin r) (Fin c) R} {B : Matrix (Fin r') (Fin c') R} (ha : a.Denotes v A) (hb : b.Denotes v B)
    (hd : c ≠ r') : S.matMul a b = some (.error .dimMissmatch) := by
  unfold SemiRingOps.matMul
  rw [if_pos (by rw [ha.cols, hb.rows]; exact hd)]

/-- C66: `nat_pow(k)` of a square matrix is its `k`-th power, and the identity for `k = 0`. -/
theorem C66_nat_pow {α R : Type} [CommRing R] {S : SemiRingOps α} {v : α → R} (h : S.Models v) {a : Mat α} {n : Nat}
    {A : Matrix (Fin n) (Fin n) R} (ha : a.Denotes v A) (k : Nat) : ∃ s, S.matNatPow a k = some s ∧ s.Denotes v (A ^ k) :=
  h.matNatPow ha k

/-- C66: `dot` is the sum of the products of corresponding entries. -/
theorem C66_dot {α R : Type} [CommRing R] {S : SemiRingOps α} {v : α → R} (h : S.Models v) {a b : Mat α} {r c : Nat}
    {A B : Matrix (Fin r) (Fin c) R} (ha : a.Denotes v A) (hb : b.Denotes v B) :
    ∃ x, S.matDot a b = some x ∧ v x = ∑ i, ∑ j, A i j * B i j := h.matDot ha hb

/-- C66: `trace` is the trace of a square matrix. -/
theorem C66_trace {α R : Type} [CommRing R] {S : SemiRingOps α} {v : α → R} (h : S.Models v) {a : Mat α} {n : Nat}
    {A : Matrix (Fin n) (Fin n) R} (ha : a.Denotes v A) : ∃ x, S.matTrace a = some (.ok x) ∧ v x = A.trace := h.matTrace ha

/-- C66: `trace` of a non-square matrix is a `NotSquare` error. -/
theorem C66_trace_shape {α R : Type} [CommRing R] {S : SemiRingOps α} {v : α → R} {a : Mat α} {r c : Nat}
    {A : Matrix (Fin r) (Fin c) R} (ha : a.Denotes v A) (hrc : r ≠ c) : S.matTrace a = some (.error .notSquare) := by
  unfold SemiRingOps.matTrace
  rw [if_pos (fun e => hrc (ha.dims.1 e))]

example : unwrapMat (intOps.matMul exTall exMat) = some ⟨3, 2, false, false, false, [4, 12, 6, 18, -10, -30]⟩ := by decide
example := C66_mul intOps_models.toFav.toDomain.toRing.toSemi exTall_denotes exMat_denotes
example := C66_nat_pow intOps_models.toFav.toDomain.toRing.toSemi exMat_denotes 5
example : intOps.matMul exMat exTall = some (.error .dimMissmatch) :=
  C66_mul_shape exMat_denotes exTall_denotes (by decide)
example := C66_trace_shape (S := intOps.toSemiRingOps) exTall_denotes (by decide)

/-! ## C67: assembling matrices -/

/-- C67: `join_rows` puts the rows of the matrices below each other. -/
theorem C67_join_rows {α R : Type} {v : α → R} {c : Nat} {mats : List (Mat α)} {Ls : List (List (Fin c → R))}
    (h : List.Forall₂ (fun m L => m.Denotes v (rowsMatrix L)) mats Ls) :
    ∃ s, Mat.joinRows c mats = some s ∧ s.Denotes v (rowsMatrix Ls.flatten) := Mat.joinRows_spec h

/-- C67: every matrix is the matrix of its rows, so `C67_join_rows` applies to any list of matrices with `c` columns. -/
theorem C67_rows {α R : Type} {v : α → R} {m : Mat α} {r c : Nat} {A : Matrix (Fin r) (Fin c) R} (h : m.Denotes v A) :
    m.Denotes v (rowsMatrix (List.ofFn fun i j => A i j)) := h.ofFn

/-- C67: `join_rows` panics when the number of columns differs. -/
theorem C67_join_rows_panics {α : Type} {c : Nat} {mats : List (Mat α)} (h : ∃ m ∈ mats, m.cols ≠ c) : Mat.joinRows c mats = none :=
  Mat.joinRows_dim h

/-- C67: `join_cols` puts the columns of the matrices beside each other. -/
theorem C67_join_cols {α R : Type} {v : α → R} {r : Nat} {mats : List (Mat α)} {Ls : List (List (Fin r → R))}
    (h : List.Forall₂ (fun m L => m.Denotes v (rowsMatrix L).transpose) mats Ls) :
    ∃ s, Mat.joinCols r mats = some s ∧ s.Denotes v (rowsMatrix Ls.flatten).transpose := Mat.joinCols_spec h

/-- C67: `join_diag` is the block diagonal matrix. -/
theorem C67_join_diag {α R : Type} [CommRing R] {S : SemiRingOps α} {v : α → R} (h : S.Models v) {mats : List (Mat α)}
    {L : List (Block R)} (hm : List.Forall₂ (fun m b => m.Denotes v b.entry) mats L) :
    ∃ s, S.matJoinDiag mats = some s ∧ s.Denotes v
      (Matrix.of fun (i : Fin (L.map Block.rows).sum) (j : Fin (L.map Block.cols).sum) => blockDiagEntry L i j) :=
  h.matJoinDiag hm

example := C67_join_rows (.cons (C67_rows exMat_denotes) (.cons (C67_rows exTall_denotes) .nil))
example : Mat.joinRows 2 [exMat, exTall] = some ⟨5, 2, false, false, false, [2, 4, 1, 3, 0, 4, 0, 6, 0, -10]⟩ := by decide
example := C67_join_diag intOps_models.toFav.toDomain.toRing.toSemi (L := [⟨2, 2, !![2, 4; 1, 3]⟩, ⟨3, 2, !![0, 4; 0, 6; 0, -10]⟩])
  (.cons exMat_denotes (.cons exTall_denotes .nil))

/-! ## C68: determinants -/

/-- C68: `det_naive` over any commutative ring is the determinant. -/
theorem C68_det_naive {α R : Type} [CommRing R] {S : RingOps α} {v : α → R} (h : S.Models v) {a : Mat α} {n : Nat}
    {A : Matrix (Fin n) (Fin n) R} (ha : a.Denotes v A) : ∃ x, S.detNaive a = some (.ok x) ∧ v x = A.det := h.detNaive ha

/-- C68: `det_naive` of a non-square matrix is a `NotSquare` error. -/
theorem C68_det_naive_shape {α R : Type} [CommRing R] {S : RingOps α} {v : α → R} {a : Mat α} {r c : Nat}
    {A : Matrix (Fin r) (Fin c) R} (ha : a.Denotes v A) (hrc : r ≠ c) : S.detNaive a = some (.error .notSquare) := by
  unfold RingOps.detNaive
  rw [if_pos (fun e => hrc (ha.dims.1 e))]

/-- C68: `det` over a Bézout domain is the determinant, computed by the Leibniz formula or by the Hermite form. -/
theorem C68_det {α R : Type} [CommRing R] {S : BezoutOps α} {v : α → R} (h : S.Models v) {a : Mat α} {n : Nat}
    {A : Matrix (Fin n) (Fin n) R} (ha : a.Denotes v A) : ∃ x, S.matDet a = some (.ok x) ∧ v x = A.det := h.matDet ha

/-- C68: `det` of a non-square matrix is a `NotSquare` error. -/
theorem C68_det_shape {α R : Type} [CommRing R] {S : BezoutOps α} {v : α → R} {a : Mat α} {r c : Nat}
    {A : Matrix (Fin r) (Fin c) R} (ha : a.Denotes v A) (hrc : r ≠ c) : S.matDet a = some (.error .notSquare) :=
  BezoutOps.matDet_notSquare ha hrc

/-- C68: `det_hermite` is the determinant. -/
theorem C68_det_hermite {α R : Type} [CommRing R] {S : BezoutOps α} {v : α → R} (h : S.Models v) {a : Mat α} {n : Nat}
    {A : Matrix (Fin n) (Fin n) R} (ha : a.Denotes v A) : ∃ x, S.detHermite a = some x ∧ v x = A.det := h.detHermite ha

example := C68_det intOps_models.bezout exMat_denotes
example := C68_det_hermite intOps_models.bezout exMat_denotes
example : ∃ x : Int, intOps.bezout.detHermite exMat = some x ∧ x = 2 := by
  obtain ⟨x, e, hx⟩ := C68_det_hermite intOps_models.bezout exMat_denotes
  exact ⟨x, e, by rw [Matrix.det_fin_two] at hx; simpa using hx⟩

/-! ## C69: elementary operations -/

/-- C69: a valid elementary row operation applied to a matrix is left multiplication by an invertible matrix whose determinant is
the value of `det()` of the operation: the matrix obtained by applying the operation to the identity. -/
theorem C69_row_operation {α R : Type} [CommRing R] {S : DomainOps α} {v : α → R} (h : S.Models v) {n c : Nat} {op : ElemOp α}
    (ho : op.Valid v n) {i : Mat α} (hi : i.Denotes v (1 : Matrix (Fin n) (Fin n) R)) {a : Mat α} {A : Matrix (Fin n) (Fin c) R}
    (ha : a.Denotes v A) :
    ∃ a' e, S.rowOp op a = some a' ∧ S.rowOp op i = some e ∧ ∃ E : Matrix (Fin n) (Fin n) R, e.Denotes v E ∧ a'.Denotes v (E * A) ∧
      E.det = v (S.elemDet op) ∧ IsUnit E.det := by
  obtain ⟨a', e1, h1⟩ := h.rowOp ho ha
  obtain ⟨e, e2, h2⟩ := h.rowOp ho hi
  refine ⟨a', e, e1, e2, _, h2, ?_, ?_, ?_⟩
  · rw [← ElemOp.act_mul, Matrix.one_mul]; exact h1
  · rw [h.det_act ho, Matrix.det_one, mul_one]
  · rw [h.det_act ho, Matrix.det_one, mul_one]; exact h.isUnit_elemDet ho

/-- C69: a column operation is the same operation on the transposed matrix, so right multiplication by the transpose. -/
theorem C69_col_operation {α R : Type} [CommRing R] {S : DomainOps α} {v : α → R} (h : S.Models v) {n r : Nat} {op : ElemOp α}
    (ho : op.Valid v n) {i : Mat α} (hi : i.Denotes v (1 : Matrix (Fin n) (Fin n) R)) {a : Mat α} {A : Matrix (Fin r) (Fin n) R}
    (ha : a.Denotes v A) :
    ∃ a' e, S.colOp op a = some a' ∧ S.rowOp op i = some e ∧ ∃ E : Matrix (Fin n) (Fin n) R, e.Denotes v E ∧
      a'.Denotes v (A * E.transpose) ∧ E.det = v (S.elemDet op) ∧ IsUnit E.det := by
  obtain ⟨a', e1, h1⟩ := h.colOp ho ha
  obtain ⟨e, e2, h2⟩ := h.rowOp ho hi
  refine ⟨a', e, e1, e2, _, h2, ?_, ?_, ?_⟩
  · rw [← Matrix.transpose_transpose A, ← Matrix.transpose_mul, ← ElemOp.act_mul, Matrix.one_mul]
    exact h1
  · rw [h.det_act ho, Matrix.det_one, mul_one]
  · rw [h.det_act ho, Matrix.det_one, mul_one]; exact h.isUnit_elemDet ho

/-- C69: what the four operations do to the rows. -/
theorem C69_rows {α R : Type} [CommRing R] {S : DomainOps α} {v : α → R} (h : S.Models v) {n c : Nat} {a : Mat α}
    {A : Matrix (Fin n) (Fin c) R} (ha : a.Denotes v A) (i j : Fin n) (hij : i ≠ j) (x y z w : α) :
    (∃ a' B, S.rowOp (.swap i j) a = some a' ∧ a'.Denotes v B ∧ ∀ k l, B k l = A (Equiv.swap i j k) l) ∧
    (IsUnit (v x) → ∃ a' B, S.rowOp (.unitMul i x) a = some a' ∧ a'.Denotes v B ∧
      ∀ k l, B k l = if k = i then v x * A i l else A k l) ∧
    (∃ a' B, S.rowOp (.addRowMul i j x) a = some a' ∧ a'.Denotes v B ∧
      ∀ k l, B k l = if k = i then A i l + v x * A j l else A k l) ∧
    (IsUnit (v x * v w - v y * v z) → ∃ a' B, S.rowOp (.twoInv i j x y z w) a = some a' ∧ a'.Denotes v B ∧
      ∀ k l, B k l = if k = i then v x * A i l + v y * A j l else if k = j then v z * A i l + v w * A j l else A k l) := by
  have hij' : (i : Nat) ≠ j := fun e => hij (Fin.ext e)
  refine ⟨?_, ?_, ?_, ?_⟩
  · obtain ⟨a', e, h1⟩ := h.rowOp (op := .swap i j) ⟨i.2, j.2, hij'⟩ ha
    refine ⟨a', _, e, h1, fun k l => ?_⟩
    unfold ElemOp.act
    dsimp only
    rw [dif_pos ⟨i.2, j.2⟩, rowTwo_apply]
    by_cases hk : k = j
    · subst hk; simp
    · by_cases hk' : k = i
      · subst hk'; simp [hij]
      · rw [if_neg hk, if_neg hk', Equiv.swap_apply_of_ne_of_ne hk' hk]
  · intro hx
    obtain ⟨a', e, h1⟩ := h.rowOp (op := .unitMul i x) ⟨i.2, hx⟩ ha
    refine ⟨a', _, e, h1, fun k l => ?_⟩
    unfold ElemOp.act
    dsimp only
    rw [dif_pos i.2, rowScale_apply]
  · obtain ⟨a', e, h1⟩ := h.rowOp (op := .addRowMul i j x) ⟨i.2, j.2, hij'⟩ ha
    refine ⟨a', _, e, h1, fun k l => ?_⟩
    unfold ElemOp.act
    dsimp only
    rw [dif_pos ⟨i.2, j.2⟩, rowTwo_apply]
    by_cases hk : k = j
    · rw [if_pos hk, if_neg (by rw [hk]; exact hij.symm), hk]; ring
    · rw [if_neg hk]
      by_cases hk' : k = i
      · rw [if_pos hk', if_pos hk', one_mul]
      · rw [if_neg hk', if_neg hk']
  · intro hx
    obtain ⟨a', e, h1⟩ := h.rowOp (op := .twoInv i j x y z w) ⟨i.2, j.2, hij', hx⟩ ha
    refine ⟨a', _, e, h1, fun k l => ?_⟩
    unfold ElemOp.act
    dsimp only
    rw [dif_pos ⟨i.2, j.2⟩, rowTwo_apply]
    by_cases hk : k = i
    · rw [if_neg (by rw [hk]; exact hij)]; simp [hk]
    · rw [if_neg hk, if_neg hk]

example : (ElemOp.twoInv 0 2 2 3 1 2 : ElemOp Int).Valid id 3 := ⟨by decide, by decide, by decide, by norm_num⟩
example := C69_rows intOps_models.toFav.toDomain exTall_denotes 0 2 (by decide) (2 : Int) 3 1 2

/-! ## C70: Hermite normal form -/

/-- C70: `row_hermite_algorithm(A)` over a Bézout domain never panics and returns `(H, U, det, pivots)` with `H = U A`, `U` invertible
with determinant `det`, `H` in row echelon form with the given pivot columns, and every pivot a favourite associate. -/
theorem C70_row_hermite {α R : Type} [CommRing R] {S : BezoutOps α} {v : α → R} (h : S.Models v) {r c : Nat} {m : Mat α}
    {A : Matrix (Fin r) (Fin c) R} (hm : m.Denotes v A) :
    ∃ res H U, S.rowHermite m = some res ∧ res.h.Denotes v H ∧ res.u.Denotes v U ∧ H = U * A ∧ U.det = v res.det ∧
      IsUnit (v res.det) ∧ IsRowEchelon H res.pivs ∧
      ∀ (i : Fin r) (j : Fin c), res.pivs[(i : Nat)]? = some (j : Nat) → S.IsFav v (H i j) := h.rowHermite hm

/-- C70: `col_hermite_algorithm(A)` returns `H = A U` with the transpose of `H` in row echelon form. -/
theorem C70_col_hermite {α R : Type} [CommRing R] {S : BezoutOps α} {v : α → R} (h : S.Models v) {r c : Nat} {m : Mat α}
    {A : Matrix (Fin r) (Fin c) R} (hm : m.Denotes v A) :
    ∃ (res : HermiteResult α) (H : Matrix (Fin r) (Fin c) R) (U : Matrix (Fin c) (Fin c) R), S.colHermite m = some res ∧
      res.h.Denotes v H ∧ res.u.Denotes v U ∧ H = A * U ∧ U.det = v res.det ∧
      IsUnit (v res.det) ∧ IsRowEchelon H.transpose res.pivs ∧
      ∀ (i : Fin r) (j : Fin c), res.pivs[(j : Nat)]? = some (i : Nat) → S.IsFav v (H i j) := by
  obtain ⟨res, H, U, e, h1, h2, h3, h4, h5, h6, h7⟩ := h.rowHermite hm.transposed
  refine ⟨⟨res.h.transposed, res.u.transposed, res.det, res.pivs⟩, H.transpose, U.transpose, ?_, h1.transposed, h2.transposed, ?_, ?_,
    h5, by rw [Matrix.transpose_transpose]; exact h6, fun i j e => h7 j i e⟩
  · unfold BezoutOps.colHermite
    rw [e]
    rfl
  · rw [h3, Matrix.transpose_mul, Matrix.transpose_transpose]
  · rw [Matrix.det_transpose]; exact h4

/-- C70: the rows of `H` and the rows of `A` span the same module. -/
theorem C70_row_span {α R : Type} [CommRing R] {S : BezoutOps α} {v : α → R} (h : S.Models v) {r c : Nat} {m : Mat α}
    {A : Matrix (Fin r) (Fin c) R} (hm : m.Denotes v A) :
    ∃ res, ∃ H : Matrix (Fin r) (Fin c) R, S.rowHermite m = some res ∧ res.h.Denotes v H ∧
      Submodule.span R (Set.range H.row) = Submodule.span R (Set.range A.row) := by
  obtain ⟨res, H, U, e, h1, h2, h3, h4, h5, h6, h7⟩ := h.rowHermite hm
  refine ⟨res, H, e, h1, ?_⟩
  rw [← _root_.range_vecMulLinear, ← _root_.range_vecMulLinear]
  apply le_antisymm
  · rintro _ ⟨x, rfl⟩
    exact ⟨Matrix.vecMul x U, by rw [Matrix.vecMulLinear_apply, Matrix.vecMulLinear_apply, Matrix.vecMul_vecMul, h3]⟩
  · rintro _ ⟨x, rfl⟩
    refine ⟨Matrix.vecMul x U⁻¹, ?_⟩
    rw [Matrix.vecMulLinear_apply, Matrix.vecMulLinear_apply, Matrix.vecMul_vecMul, h3, ← Matrix.mul_assoc,
      Matrix.nonsing_inv_mul _ (by rw [h4]; exact h5), Matrix.one_mul]

/-- C70: row echelon form means what it should: a row with a pivot starts with zeros and has a non-zero entry in its pivot column, pivot
columns increase, and below a pivot there are only zeros. -/
theorem C70_echelon {R : Type} [CommRing R] {r c : Nat} {H : Matrix (Fin r) (Fin c) R} {pivs : List Nat} (h : IsRowEchelon H pivs)
    (i k : Fin r) (j : Fin c) (hi : pivs[(i : Nat)]? = some (j : Nat)) :
    H i j ≠ 0 ∧ (∀ l : Fin c, l < j → H i l = 0) ∧ (i < k → H k j = 0) :=
  ⟨h.pivot i j hi, fun l hl => h.left i l _ hi hl, fun hik => h.below_pivot hik hi⟩

example := C70_row_hermite intOps_models.bezout exTall_denotes
example : IsRowEchelon (!![0, 2; 0, 0; 0, 0] : Matrix (Fin 3) (Fin 2) Int) [1] :=
  ⟨by decide, by decide, by decide,
    fun i j e => by fin_cases i <;> fin_cases j <;> simp_all,
    fun i j p hp hj => by fin_cases i <;> fin_cases j <;> simp_all,
    fun i j e => by fin_cases i <;> fin_cases j <;> simp_all⟩

/-! ## C71: rank -/

/-- C71: `rank(A)`, the number of pivots, is the rank of `A` over every field that contains the ring (for example its field of
fractions). -/
theorem C71_rank {α R : Type} [CommRing R] {S : BezoutOps α} {v : α → R} (h : S.Models v) {r c : Nat} {m : Mat α}
    {A : Matrix (Fin r) (Fin c) R} (hm : m.Denotes v A) {K : Type} [Field K] (f : R →+* K) (hf : Function.Injective f) :
    S.matRank m = some (A.map f).rank := h.matRank hm f hf

example := C71_rank intOps_models.bezout exTall_denotes (Int.castRingHom ℚ) Int.cast_injective

/-! ## C72: reduced Hermite form and inverse -/

/-- C72: `row_reduced_hermite_algorithm(A)` over a Euclidean domain never panics and returns `(H, U, pivots)` with `H = U A`, `U`
invertible, `H` in row echelon form, pivots favourite associates, and every entry above a pivot zero or of smaller norm than the pivot. -/
theorem C72_row_reduced_hermite {α R : Type} [CommRing R] {S : EucOps α} {v : α → R} (h : S.Models v) {r c : Nat} {m : Mat α}
    {A : Matrix (Fin r) (Fin c) R} (hm : m.Denotes v A) :
    ∃ mh mu pivs H U, S.rowReducedHermite m = some (mh, mu, pivs) ∧ mh.Denotes v H ∧ mu.Denotes v U ∧ H = U * A ∧ IsUnit U.det ∧
      IsRowEchelon H pivs ∧ (∀ (i : Fin r) (j : Fin c), pivs[(i : Nat)]? = some (j : Nat) → S.IsFav v (H i j)) ∧
      ∀ (i k : Fin r) (j : Fin c), pivs[(k : Nat)]? = some (j : Nat) → i < k → S.Small v (H i j) (H k j) := h.rowReducedHermite hm

/-- C72: `col_reduced_hermite_algorithm` is the same for columns. -/
theorem C72_col_reduced_hermite {α R : Type} [CommRing R] {S : EucOps α} {v : α → R} (h : S.Models v) {r c : Nat} {m : Mat α}
    {A : Matrix (Fin r) (Fin c) R} (hm : m.Denotes v A) :
    ∃ (mh mu : Mat α) (pivs : List Nat) (H : Matrix (Fin r) (Fin c) R) (U : Matrix (Fin c) (Fin c) R),
      S.colReducedHermite m = some (mh, mu, pivs) ∧ mh.Denotes v H ∧ mu.Denotes v U ∧ H = A * U ∧ IsUnit U.det ∧
      IsRowEchelon H.transpose pivs ∧ (∀ (i : Fin r) (j : Fin c), pivs[(j : Nat)]? = some (i : Nat) → S.IsFav v (H i j)) ∧
      ∀ (i : Fin r) (j k : Fin c), pivs[(k : Nat)]? = some (i : Nat) → j < k → S.Small v (H i j) (H i k) := by
  obtain ⟨mh, mu, pivs, H, U, e, h1, h2, h3, h4, h5, h6, h7⟩ := h.rowReducedHermite hm.transposed
  refine ⟨mh.transposed, mu.transposed, pivs, H.transpose, U.transpose, ?_, h1.transposed, h2.transposed, ?_, ?_,
    by rw [Matrix.transpose_transpose]; exact h5, fun i j e => h6 j i e, fun i j k e hjk => h7 j k i e hjk⟩
  · unfold EucOps.colReducedHermite
    rw [e]
    rfl
  · rw [h3, Matrix.transpose_mul, Matrix.transpose_transpose]
  · rw [Matrix.det_transpose]; exact h4

/-- C72: `inv(A)` over a Euclidean domain returns the inverse exactly when `A` is invertible (its determinant is a unit). -/
theorem C72_inv {α R : Type} [CommRing R] {S : EucOps α} {v : α → R} (h : S.Models v) {n : Nat} {m : Mat α}
    {A : Matrix (Fin n) (Fin n) R} (hm : m.Denotes v A) :
    (IsUnit A.det ∧ ∃ i, S.matInv m = some (some i) ∧ i.Denotes v A⁻¹) ∨ (¬ IsUnit A.det ∧ S.matInv m = some none) := h.matInv hm

/-- C72: `inv` of a non-square matrix panics. -/
theorem C72_inv_shape {α R : Type} {S : EucOps α} {v : α → R} {r c : Nat} {m : Mat α}
    {A : Matrix (Fin r) (Fin c) R} (hm : m.Denotes v A) (hrc : r ≠ c) : S.matInv m = none := by
  unfold EucOps.matInv
  rw [hm.rows, hm.cols, beq_false_of_ne hrc]
  rfl

example := C72_inv intOps_models exMat_denotes
example : intOps.matInv exMat = some none := by
  rcases C72_inv intOps_models exMat_denotes with ⟨h, -⟩ | ⟨-, h⟩
  · rw [Matrix.det_fin_two, Int.isUnit_iff] at h
    simp at h
  · exact h
example := C72_inv ratOps_models.fieldEuc (exMat_denotes.applyMap (w := (id : ℚ → ℚ)) (fun z => (z : ℚ)) (fun z => (z : ℚ)) fun _ => rfl)

/-! ## C73: primitive parts -/

/-- C73: `factor_primitive(A)` over a gcd domain returns `None` exactly for the zero matrix; otherwise it returns `(g, P)` with
`A = g P`, `g` a nonzero favourite associate and the entries of `P` without a common factor. -/
theorem C73_factor_primitive {α R : Type} [CommRing R] {S : GcdOps α} {v : α → R} (h : S.Models v) {r c : Nat} {m : Mat α}
    {A : Matrix (Fin r) (Fin c) R} (hm : m.Denotes v A) :
    (A = 0 ∧ S.matFactorPrimitive m = some none ∧ S.matPrimitivePart m = some none) ∨
    (A ≠ 0 ∧ ∃ g p P, S.matFactorPrimitive m = some (some (g, p)) ∧ S.matPrimitivePart m = some (some p) ∧ p.Denotes v P ∧
      v g ≠ 0 ∧ S.IsFav v (v g) ∧ (∀ i j, A i j = v g * P i j) ∧ IsGcdOf {x | ∃ i j, P i j = x} 1) := by
  rcases h.matFactorPrimitive hm with ⟨h1, h2⟩ | ⟨h1, g, p, P, h2, h3, h4, h5, h6, h7⟩
  · exact .inl ⟨h1, h2, by unfold GcdOps.matPrimitivePart; rw [h2]; rfl⟩
  · exact .inr ⟨h1, g, p, P, h2, by unfold GcdOps.matPrimitivePart; rw [h2]; rfl, h3, h4, h5, h6, h7⟩

/-- C73: `factor_primitive_fof(A)` of a nonzero matrix over the field of fractions of a gcd domain returns `(x, P)` with `A = x P`, where
`P` has entries in the domain without a common factor. The full statement "for every matrix" fails, see the next theorem. -/
theorem C73_factor_primitive_fof_partial {α β K R : Type} [Field K] [CommRing R] [Algebra R K] [IsFractionRing R K]
    {S : DomainOps α} {B : GcdOps β} {fromBase : β → α} {num den : α → β} {v : α → K} {w : β → R} (hS : S.Models v) (hB : B.Models w)
    (hF : FofModels fromBase num den v w) {r c : Nat} {m : Mat α} {A : Matrix (Fin r) (Fin c) K} (hm : m.Denotes v A) (hA : A ≠ 0) :
    ∃ x p P, matFactorPrimitiveFof S B fromBase num den m = some (x, p) ∧ p.Denotes w P ∧ v x ≠ 0 ∧
      (∀ i j, A i j = v x * algebraMap R K (P i j)) ∧ IsGcdOf {y | ∃ i j, P i j = y} 1 := by
  rcases matFactorPrimitiveFof_spec hS hB hF hm with ⟨h0, -⟩ | ⟨-, h⟩
  · exact absurd h0 hA
  · exact h

/-- C73: `factor_primitive_fof` panics on a zero matrix. -/
theorem C73_factor_primitive_fof_wrong {α β K R : Type} [Field K] [CommRing R] [Algebra R K] [IsFractionRing R K]
    {S : DomainOps α} {B : GcdOps β} {fromBase : β → α} {num den : α → β} {v : α → K} {w : β → R} (hS : S.Models v) (hB : B.Models w)
    (hF : FofModels fromBase num den v w) {r c : Nat} {m : Mat α} (hm : m.Denotes v (0 : Matrix (Fin r) (Fin c) K)) :
    matFactorPrimitiveFof S B fromBase num den m = none := by
  rcases matFactorPrimitiveFof_spec hS hB hF hm with ⟨-, h⟩ | ⟨h0, -⟩
  · exact h
  · exact absurd rfl h0

example := C73_factor_primitive intOps_models.bezout.toGcd exTall_denotes
example : ∃ o, intOps.bezout.matFactorPrimitive exTall = some (some o) := by
  rcases C73_factor_primitive intOps_models.bezout.toGcd exTall_denotes with ⟨h, -⟩ | ⟨-, g, p, P, h, -⟩
  · exact absurd (congrFun (congrFun h 0) 1) (by simp)
  · exact ⟨_, h⟩
example := C73_factor_primitive_fof_partial ratOps_models intOps_models.bezout.toGcd C64_rat_fof
  (exMat_denotes.applyMap (w := (id : ℚ → ℚ)) (fun z => (z : ℚ) / 6) (fun z => (z : ℚ) / 6) fun _ => rfl)
  (fun h => absurd (congrFun (congrFun h 0) 0) (by norm_num))

end Verif.Rings
