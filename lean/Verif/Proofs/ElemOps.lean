import Verif.Proofs.MatrixDet

/-!
# Elementary row and column operations
-/

namespace Verif.Rings

section
variable {R : Type} [CommRing R] {n m : Nat}

/-- replace rows `i` and `j` by linear combinations of them -/
def rowTwo (A : Matrix (Fin n) (Fin m) R) (i j : Fin n) (a b c d : R) : Matrix (Fin n) (Fin m) R :=
  Matrix.of fun k l => if k = j then c * A i l + d * A j l else if k = i then a * A i l + b * A j l else A k l

theorem rowTwo_apply (A : Matrix (Fin n) (Fin m) R) (i j : Fin n) (a b c d : R) (k : Fin n) (l : Fin m) :
    rowTwo A i j a b c d k l =
      if k = j then c * A i l + d * A j l else if k = i then a * A i l + b * A j l else A k l := rfl

theorem rowTwo_mul {k : Nat} (U : Matrix (Fin n) (Fin k) R) (A : Matrix (Fin k) (Fin m) R) (i j : Fin n) (a b c d : R) :
    rowTwo (U * A) i j a b c d = rowTwo U i j a b c d * A := by
  ext x y
  rw [rowTwo_apply, Matrix.mul_apply, Matrix.mul_apply, Matrix.mul_apply, Matrix.mul_apply]
  by_cases hj : x = j
  · rw [if_pos hj, Finset.mul_sum, Finset.mul_sum, ← Finset.sum_add_distrib]
    refine Finset.sum_congr rfl fun z _ => ?_
    rw [rowTwo_apply, if_pos hj]
    ring
  · by_cases hi : x = i
    · rw [if_neg hj, if_pos hi, Finset.mul_sum, Finset.mul_sum, ← Finset.sum_add_distrib]
      refine Finset.sum_congr rfl fun z _ => ?_
      rw [rowTwo_apply, if_neg hj, if_pos hi]
      ring
    · rw [if_neg hj, if_neg hi]
      refine Finset.sum_congr rfl fun z _ => ?_
      rw [rowTwo_apply, if_neg hj, if_neg hi]

theorem det_rowTwo (U : Matrix (Fin n) (Fin n) R) (i j : Fin n) (hij : i ≠ j) (a b c d : R) :
    (rowTwo U i j a b c d).det = (a * d - b * c) * U.det := by
  let p : Fin n → R := fun l => U i l
  let q : Fin n → R := fun l => U j l
  have hji := hij.symm
  have e0 : rowTwo U i j a b c d = (U.updateRow i (a • p + b • q)).updateRow j (c • p + d • q) := by
    ext x y
    rw [rowTwo_apply, Matrix.updateRow_apply, Matrix.updateRow_apply]
    rfl
  have e1 : (U.updateRow i (a • p + b • q)).updateRow j q = U.updateRow i (a • p + b • q) := by
    ext x y
    rw [Matrix.updateRow_apply, Matrix.updateRow_apply]
    by_cases hj : x = j
    · rw [if_pos hj, if_neg (by rw [hj]; exact hji), hj]
    · rw [if_neg hj]
  have e2 : (U.updateRow i (a • p + b • q)).updateRow j p = (U.updateRow j p).updateRow i (a • p + b • q) :=
    Matrix.updateRow_comm U hij _ _
  have e3 : ((U.updateRow j p).updateRow i p).det = 0 := by
    apply Matrix.det_zero_of_row_eq hij
    rw [Matrix.updateRow_self, Matrix.updateRow_ne hij.symm, Matrix.updateRow_self]
  have e4 : (U.updateRow i q).det = 0 := by
    apply Matrix.det_zero_of_row_eq hij
    rw [Matrix.updateRow_self, Matrix.updateRow_ne hij.symm]
  have e6 : U.updateRow i p = U := by
    ext x y
    rw [Matrix.updateRow_apply]
    split
    · rename_i hx; rw [hx]
    · rfl
  have e5 : ((U.updateRow j p).updateRow i q).det = -U.det := by
    have : (U.updateRow j p).updateRow i q = U.submatrix (Equiv.swap i j) id := by
      ext x y
      rw [Matrix.submatrix_apply, Matrix.updateRow_apply, Matrix.updateRow_apply]
      by_cases hi : x = i
      · subst hi; rw [if_pos rfl, Equiv.swap_apply_left]; rfl
      · rw [if_neg hi]
        by_cases hj : x = j
        · subst hj; rw [if_pos rfl, Equiv.swap_apply_right]; rfl
        · rw [if_neg hj, Equiv.swap_apply_of_ne_of_ne hi hj]; rfl
    rw [this, Matrix.det_permute, Equiv.Perm.sign_swap hij]
    simp
  rw [e0, Matrix.det_updateRow_add, Matrix.det_updateRow_smul, Matrix.det_updateRow_smul, e1, e2, Matrix.det_updateRow_add,
    Matrix.det_updateRow_add, Matrix.det_updateRow_smul, Matrix.det_updateRow_smul, Matrix.det_updateRow_smul,
    Matrix.det_updateRow_smul, e3, e4, e5, e6]
  ring

/-- multiply row `i` by `u` -/
def rowScale (A : Matrix (Fin n) (Fin m) R) (i : Fin n) (u : R) : Matrix (Fin n) (Fin m) R :=
  Matrix.of fun k l => if k = i then u * A i l else A k l

theorem rowScale_apply (A : Matrix (Fin n) (Fin m) R) (i : Fin n) (u : R) (k : Fin n) (l : Fin m) :
    rowScale A i u k l = if k = i then u * A i l else A k l := rfl

theorem rowScale_mul {k : Nat} (U : Matrix (Fin n) (Fin k) R) (A : Matrix (Fin k) (Fin m) R) (i : Fin n) (u : R) :
    rowScale (U * A) i u = rowScale U i u * A := by
  ext x y
  rw [rowScale_apply, Matrix.mul_apply, Matrix.mul_apply, Matrix.mul_apply]
  by_cases hi : x = i
  · rw [if_pos hi, Finset.mul_sum]
    refine Finset.sum_congr rfl fun z _ => ?_
    rw [rowScale_apply, if_pos hi]
    ring
  · rw [if_neg hi]
    refine Finset.sum_congr rfl fun z _ => ?_
    rw [rowScale_apply, if_neg hi]

theorem det_rowScale (U : Matrix (Fin n) (Fin n) R) (i : Fin n) (u : R) : (rowScale U i u).det = u * U.det := by
  let p : Fin n → R := fun l => U i l
  have e0 : rowScale U i u = U.updateRow i (u • p) := by
    ext x y
    rw [rowScale_apply, Matrix.updateRow_apply]
    rfl
  have e6 : U.updateRow i p = U := by
    ext x y
    rw [Matrix.updateRow_apply]
    split
    · rename_i hx; rw [hx]
    · rfl
  rw [e0, Matrix.det_updateRow_smul, e6]

end

section
variable {α R : Type} [CommRing R] {S : DomainOps α} {v : α → R} (h : S.Models v)
include h

theorem DomainOps.Models.elemRows_twoInv {A : Mat α} {r c : Nat} {M : Matrix (Fin r) (Fin c) R} (hA : A.Denotes v M) (i j : Fin r)
    (x y z w : α) : ∃ A', S.elemRows (.twoInv i j x y z w) A = some A' ∧ A'.Denotes v (rowTwo M i j (v x) (v y) (v z) (v w)) := by
  obtain ⟨f, hf, hvf⟩ := (Mat.denotes_iff S.zero).1 hA
  unfold DomainOps.elemRows
  rw [hA.cols]
  obtain ⟨A', e, hA'⟩ := hf.colLoop (step := S.elemStep (.twoInv i j x y z w)) (fun _ col k =>
      if k = j then S.add (S.mul z (col i)) (S.mul w (col j)) else
        if k = i then S.add (S.mul x (col i)) (S.mul y (col j)) else col k) (by
    intro m g l hl hm
    change ∃ m', S.twoInvStep i j x y z w m l = some m' ∧ _
    unfold DomainOps.twoInvStep
    rw [hm.get i l i.2 hl, hm.get j l j.2 hl, Option.bind_some, Option.bind_some]
    obtain ⟨m1, e1, h1⟩ := hm.set i.2 hl (S.add (S.mul x (g i l)) (S.mul y (g j l)))
    obtain ⟨m2, e2, h2⟩ := h1.set j.2 hl (S.add (S.mul z (g i l)) (S.mul w (g j l)))
    refine ⟨m2, by rw [e1, Option.bind_some, e2], h2.congr ?_⟩
    intro k l' _ _
    by_cases hl' : l' = l
    · subst hl'; simp
    · simp [hl'])
  refine ⟨A', e, hA'.denotes' fun k l => ?_⟩
  rw [rowTwo_apply]
  by_cases hj : k = j
  · rw [if_pos hj, if_pos (by rw [hj]), h.toRing.toSemi.add, h.toRing.toSemi.mul, h.toRing.toSemi.mul, hvf, hvf]
  · rw [if_neg hj, if_neg (by rwa [Fin.val_inj])]
    by_cases hi : k = i
    · rw [if_pos hi, if_pos (by rw [hi]), h.toRing.toSemi.add, h.toRing.toSemi.mul, h.toRing.toSemi.mul, hvf, hvf]
    · rw [if_neg hi, if_neg (by rwa [Fin.val_inj]), hvf]

theorem DomainOps.Models.elemRows_swap {A : Mat α} {r c : Nat} {M : Matrix (Fin r) (Fin c) R} (hA : A.Denotes v M) (i j : Fin r)
    : ∃ A', S.elemRows (.swap i j) A = some A' ∧ A'.Denotes v (rowTwo M i j 0 1 1 0) := by
  obtain ⟨f, hf, hvf⟩ := (Mat.denotes_iff S.zero).1 hA
  unfold DomainOps.elemRows
  rw [hA.cols]
  obtain ⟨A', e, hA'⟩ := hf.colLoop (step := S.elemStep (.swap i j)) (fun _ col k =>
      if k = j then col i else if k = i then col j else col k) (by
    intro m g l hl hm
    change ∃ m', swapStep i j m l = some m' ∧ _
    unfold swapStep
    rw [hm.get i l i.2 hl, hm.get j l j.2 hl, Option.bind_some, Option.bind_some]
    obtain ⟨m1, e1, h1⟩ := hm.set i.2 hl (g j l)
    obtain ⟨m2, e2, h2⟩ := h1.set j.2 hl (g i l)
    refine ⟨m2, by rw [e1, Option.bind_some, e2], h2.congr ?_⟩
    intro k l' _ _
    by_cases hl' : l' = l
    · subst hl'; simp
    · simp [hl'])
  refine ⟨A', e, hA'.denotes' fun k l => ?_⟩
  rw [rowTwo_apply]
  by_cases hj : k = j
  · rw [if_pos hj, if_pos (by rw [hj]), hvf]; ring
  · rw [if_neg hj, if_neg (by rwa [Fin.val_inj])]
    by_cases hi : k = i
    · rw [if_pos hi, if_pos (by rw [hi]), hvf]; ring
    · rw [if_neg hi, if_neg (by rwa [Fin.val_inj]), hvf]

theorem DomainOps.Models.elemRows_addRowMul {A : Mat α} {r c : Nat} {M : Matrix (Fin r) (Fin c) R} (hA : A.Denotes v M) (i j : Fin r)
    (hij : i ≠ j) (x : α) : ∃ A', S.elemRows (.addRowMul i j x) A = some A' ∧ A'.Denotes v (rowTwo M i j 1 (v x) 0 1) := by
  obtain ⟨f, hf, hvf⟩ := (Mat.denotes_iff S.zero).1 hA
  unfold DomainOps.elemRows
  rw [hA.cols]
  obtain ⟨A', e, hA'⟩ := hf.colLoop (step := S.elemStep (.addRowMul i j x)) (fun _ col k =>
      if k = i then S.add (col i) (S.mul (col j) x) else col k) (by
    intro m g l hl hm
    change ∃ m', S.addRowMulStep i j x m l = some m' ∧ _
    unfold DomainOps.addRowMulStep
    rw [hm.get j l j.2 hl, Option.bind_some]
    obtain ⟨m1, e1, h1⟩ := hm.modify (g := fun z => some (S.add z (S.mul (g j l) x))) i.2 hl rfl
    refine ⟨m1, e1, h1.congr ?_⟩
    intro k l' _ _
    by_cases hl' : l' = l
    · subst hl'; simp
    · simp [hl'])
  refine ⟨A', e, hA'.denotes' fun k l => ?_⟩
  rw [rowTwo_apply]
  by_cases hj : k = j
  · rw [if_pos hj, if_neg (by rw [hj, Fin.val_inj]; exact hij.symm), hj, hvf]; ring
  · rw [if_neg hj]
    by_cases hi : k = i
    · rw [if_pos hi, if_pos (by rw [hi]), h.toRing.toSemi.add, h.toRing.toSemi.mul, hvf, hvf]; ring
    · rw [if_neg hi, if_neg (by rwa [Fin.val_inj]), hvf]

theorem DomainOps.Models.elemRows_unitMul {A : Mat α} {r c : Nat} {M : Matrix (Fin r) (Fin c) R} (hA : A.Denotes v M) (i : Fin r)
    (x : α) : ∃ A', S.elemRows (.unitMul i x) A = some A' ∧ A'.Denotes v (rowScale M i (v x)) := by
  obtain ⟨f, hf, hvf⟩ := (Mat.denotes_iff S.zero).1 hA
  unfold DomainOps.elemRows
  rw [hA.cols]
  obtain ⟨A', e, hA'⟩ := hf.colLoop (step := S.elemStep (.unitMul i x)) (fun _ col k => if k = i then S.mul (col i) x else col k) (by
    intro m g l hl hm
    change ∃ m', S.unitMulStep i x m l = some m' ∧ _
    unfold DomainOps.unitMulStep
    obtain ⟨m1, e1, h1⟩ := hm.modify (g := fun z => some (S.mul z x)) i.2 hl rfl
    refine ⟨m1, e1, h1.congr ?_⟩
    intro k l' _ _
    by_cases hl' : l' = l
    · subst hl'; simp
    · simp [hl'])
  refine ⟨A', e, hA'.denotes' fun k l => ?_⟩
  rw [rowScale_apply]
  by_cases hi : k = i
  · rw [if_pos hi, if_pos (by rw [hi]), h.toRing.toSemi.mul, hvf, mul_comm]
  · rw [if_neg hi, if_neg (by rwa [Fin.val_inj]), hvf]

theorem DomainOps.Models.twoInvOk (a b c d : α) (hu : IsUnit (v a * v d - v b * v c)) : S.twoInvOk a b c d = some true := by
  have hden : Mat.Denotes v (⟨2, 2, false, false, false, [a, b, c, d]⟩ : Mat α) !![v a, v b; v c, v d] := by
    refine ⟨rfl, rfl, rfl, ?_⟩
    intro i j
    fin_cases i <;> fin_cases j <;> exact ⟨_, rfl, rfl⟩
  obtain ⟨x, e, hx⟩ := h.toRing.detNaive hden
  unfold DomainOps.twoInvOk
  rw [e]
  change (some x).bind S.isUnit = _
  rw [Option.bind_some]
  rw [h.isUnit x, @decide_eq_true _ (Classical.propDecidable _) (by rw [hx, Matrix.det_fin_two]; exact hu)]

/-- what a valid operation is -/
def ElemOp.Valid {α R : Type} [CommRing R] (v : α → R) (n : Nat) : ElemOp α → Prop
  | .swap i j => i < n ∧ j < n ∧ i ≠ j
  | .unitMul i u => i < n ∧ IsUnit (v u)
  | .addRowMul i j _ => i < n ∧ j < n ∧ i ≠ j
  | .twoInv i j a b c d => i < n ∧ j < n ∧ i ≠ j ∧ IsUnit (v a * v d - v b * v c)

theorem DomainOps.Models.elemOk {n : Nat} {op : ElemOp α} (ho : op.Valid v n) : S.elemOk op = some true := by
  cases op with
  | swap i j => simpa [DomainOps.elemOk] using ho.2.2
  | addRowMul i j x => simpa [DomainOps.elemOk] using ho.2.2
  | unitMul i u =>
    change S.isUnit u = _
    rw [h.isUnit u, @decide_eq_true _ (Classical.propDecidable _) ho.2]
  | twoInv i j a b c d =>
    change (if i = j then some false else S.twoInvOk a b c d) = _
    rw [if_neg ho.2.2.1]
    exact h.twoInvOk a b c d ho.2.2.2

/-- the action of an operation on the rows of a matrix -/
noncomputable def ElemOp.act {α R : Type} [CommRing R] (v : α → R) {n m : Nat} (op : ElemOp α) (A : Matrix (Fin n) (Fin m) R) : Matrix (Fin n) (Fin m) R :=
  match op with
  | .swap i j => if hij : i < n ∧ j < n then rowTwo A ⟨i, hij.1⟩ ⟨j, hij.2⟩ 0 1 1 0 else A
  | .addRowMul i j x => if hij : i < n ∧ j < n then rowTwo A ⟨i, hij.1⟩ ⟨j, hij.2⟩ 1 (v x) 0 1 else A
  | .unitMul i u => if hi : i < n then rowScale A ⟨i, hi⟩ (v u) else A
  | .twoInv i j a b c d => if hij : i < n ∧ j < n then rowTwo A ⟨i, hij.1⟩ ⟨j, hij.2⟩ (v a) (v b) (v c) (v d) else A

omit h in
theorem ElemOp.act_mul {n k m : Nat} (op : ElemOp α) (U : Matrix (Fin n) (Fin k) R) (A : Matrix (Fin k) (Fin m) R) :
    op.act v (U * A) = op.act v U * A := by
  cases op <;> unfold ElemOp.act <;> dsimp only <;> split <;> simp only [rowTwo_mul, rowScale_mul]

theorem DomainOps.Models.det_act {n : Nat} {op : ElemOp α} (ho : op.Valid v n) (U : Matrix (Fin n) (Fin n) R) :
    (op.act v U).det = v (S.elemDet op) * U.det := by
  cases op with
  | swap i j =>
    unfold ElemOp.act
    dsimp only
    rw [dif_pos ⟨ho.1, ho.2.1⟩, det_rowTwo _ _ _ (by rw [Ne, Fin.mk_eq_mk]; exact ho.2.2)]
    change _ = v (S.neg S.one) * _
    rw [h.toRing.neg, h.toRing.toSemi.one]
    ring
  | addRowMul i j x =>
    unfold ElemOp.act
    dsimp only
    rw [dif_pos ⟨ho.1, ho.2.1⟩, det_rowTwo _ _ _ (by rw [Ne, Fin.mk_eq_mk]; exact ho.2.2)]
    change _ = v S.one * _
    rw [h.toRing.toSemi.one]
    ring
  | unitMul i u =>
    unfold ElemOp.act
    dsimp only
    rw [dif_pos ho.1, det_rowScale]
    rfl
  | twoInv i j a b c d =>
    unfold ElemOp.act
    dsimp only
    rw [dif_pos ⟨ho.1, ho.2.1⟩, det_rowTwo _ _ _ (by rw [Ne, Fin.mk_eq_mk]; exact ho.2.2.1)]
    change _ = v (S.add (S.mul a d) (S.neg (S.mul b c))) * _
    rw [h.toRing.toSemi.add, h.toRing.neg, h.toRing.toSemi.mul, h.toRing.toSemi.mul]
    ring

theorem DomainOps.Models.isUnit_elemDet {n : Nat} {op : ElemOp α} (ho : op.Valid v n) : IsUnit (v (S.elemDet op)) := by
  cases op with
  | swap i j =>
    change IsUnit (v (S.neg S.one))
    rw [h.toRing.neg, h.toRing.toSemi.one]
    exact isUnit_one.neg
  | addRowMul i j x =>
    change IsUnit (v S.one)
    rw [h.toRing.toSemi.one]
    exact isUnit_one
  | unitMul i u => exact ho.2
  | twoInv i j a b c d =>
    change IsUnit (v (S.add (S.mul a d) (S.neg (S.mul b c))))
    rw [h.toRing.toSemi.add, h.toRing.neg, h.toRing.toSemi.mul, h.toRing.toSemi.mul, ← sub_eq_add_neg]
    exact ho.2.2.2

theorem DomainOps.Models.elemRows {n c : Nat} {op : ElemOp α} (ho : op.Valid v n) {A : Mat α} {M : Matrix (Fin n) (Fin c) R}
    (hA : A.Denotes v M) : ∃ A', S.elemRows op A = some A' ∧ A'.Denotes v (op.act v M) := by
  cases op with
  | swap i j =>
    unfold ElemOp.act
    dsimp only
    rw [dif_pos ⟨ho.1, ho.2.1⟩]
    exact h.elemRows_swap hA ⟨i, ho.1⟩ ⟨j, ho.2.1⟩
  | addRowMul i j x =>
    unfold ElemOp.act
    dsimp only
    rw [dif_pos ⟨ho.1, ho.2.1⟩]
    exact h.elemRows_addRowMul hA ⟨i, ho.1⟩ ⟨j, ho.2.1⟩ (by rw [Ne, Fin.mk_eq_mk]; exact ho.2.2) x
  | unitMul i u =>
    unfold ElemOp.act
    dsimp only
    rw [dif_pos ho.1]
    exact h.elemRows_unitMul hA ⟨i, ho.1⟩ u
  | twoInv i j a b c d =>
    unfold ElemOp.act
    dsimp only
    rw [dif_pos ⟨ho.1, ho.2.1⟩]
    exact h.elemRows_twoInv hA ⟨i, ho.1⟩ ⟨j, ho.2.1⟩ a b c d

theorem DomainOps.Models.rowOp {n c : Nat} {op : ElemOp α} (ho : op.Valid v n) {A : Mat α} {M : Matrix (Fin n) (Fin c) R}
    (hA : A.Denotes v M) : ∃ A', S.rowOp op A = some A' ∧ A'.Denotes v (op.act v M) := by
  obtain ⟨A', e, hA'⟩ := h.elemRows ho hA
  refine ⟨A', ?_, hA'⟩
  unfold DomainOps.rowOp
  rw [h.elemOk ho]
  exact e

theorem DomainOps.Models.colOp {n r : Nat} {op : ElemOp α} (ho : op.Valid v n) {A : Mat α} {M : Matrix (Fin r) (Fin n) R}
    (hA : A.Denotes v M) : ∃ A', S.colOp op A = some A' ∧ A'.Denotes v (op.act v M.transpose).transpose := by
  obtain ⟨A', e, hA'⟩ := h.elemRows ho hA.transposed
  refine ⟨A'.transposed, ?_, hA'.transposed⟩
  unfold DomainOps.colOp
  rw [h.elemOk ho]
  change (S.elemRows op A.transposed).map _ = _
  rw [e]
  rfl

end

end Verif.Rings
