import Verif.Proofs.Hermite
import Verif.Model.Smith
import Mathlib.LinearAlgebra.Matrix.NonsingularInverse

/-!
# Invertible matrices that act on the rows from `n` on
-/

namespace Verif.Rings

section
variable {R : Type} [CommRing R] {r c : Nat}

/-- `E` is invertible and is the identity in the first `n` rows and columns -/
structure GE (n : Nat) (E : Matrix (Fin r) (Fin r) R) : Prop where
  unit : IsUnit E.det
  one : ∀ i j : Fin r, ((i : Nat) < n ∨ (j : Nat) < n) → E i j = (1 : Matrix (Fin r) (Fin r) R) i j

theorem GE.id (n : Nat) : GE n (1 : Matrix (Fin r) (Fin r) R) := ⟨by simp, fun _ _ _ => rfl⟩

theorem GE.mono {n n' : Nat} {E : Matrix (Fin r) (Fin r) R} (h : GE n E) (hn : n' ≤ n) : GE n' E :=
  ⟨h.unit, fun i j hij => h.one i j (by omega)⟩

theorem GE.row_mul {n : Nat} {E : Matrix (Fin r) (Fin r) R} (h : GE n E) (H : Matrix (Fin r) (Fin c) R) (i : Fin r) (j : Fin c)
    (hi : (i : Nat) < n) : (E * H) i j = H i j := by
  rw [Matrix.mul_apply]
  rw [show (∑ k, E i k * H k j) = ∑ k, (1 : Matrix (Fin r) (Fin r) R) i k * H k j from
    Finset.sum_congr rfl fun k _ => by rw [h.one i k (.inl hi)], ← Matrix.mul_apply, Matrix.one_mul]

theorem GE.mul_col {n : Nat} {F : Matrix (Fin c) (Fin c) R} (h : GE n F) (H : Matrix (Fin r) (Fin c) R) (i : Fin r) (j : Fin c)
    (hj : (j : Nat) < n) : (H * F) i j = H i j := by
  rw [Matrix.mul_apply]
  rw [show (∑ k, H i k * F k j) = ∑ k, H i k * (1 : Matrix (Fin c) (Fin c) R) k j from
    Finset.sum_congr rfl fun k _ => by rw [h.one k j (.inr hj)], ← Matrix.mul_apply, Matrix.mul_one]

theorem GE.mul {n : Nat} {E F : Matrix (Fin r) (Fin r) R} (h : GE n E) (h' : GE n F) : GE n (E * F) := by
  refine ⟨by rw [Matrix.det_mul]; exact h.unit.mul h'.unit, ?_⟩
  rintro i j (hi | hj)
  · rw [h.row_mul F i j hi, h'.one i j (.inl hi)]
  · rw [h'.mul_col E i j hj, h.one i j (.inr hj)]

theorem GE.transpose {n : Nat} {E : Matrix (Fin r) (Fin r) R} (h : GE n E) : GE n E.transpose := by
  refine ⟨by rw [Matrix.det_transpose]; exact h.unit, ?_⟩
  intro i j hij
  rw [Matrix.transpose_apply, h.one j i hij.symm, Matrix.one_apply, Matrix.one_apply]
  simp only [eq_comm]

theorem GE.inv {n : Nat} {E : Matrix (Fin r) (Fin r) R} (h : GE n E) : GE n E⁻¹ := by
  refine ⟨Matrix.isUnit_nonsing_inv_det E h.unit, ?_⟩
  rintro i j (hi | hj)
  · rw [← h.row_mul E⁻¹ i j hi, Matrix.mul_nonsing_inv E h.unit]
  · rw [← h.mul_col E⁻¹ i j hj, Matrix.nonsing_inv_mul E h.unit]

/-- the first `n` rows and columns are those of a diagonal matrix -/
def DiagTo (n : Nat) (H : Matrix (Fin r) (Fin c) R) : Prop :=
  ∀ (i : Fin r) (j : Fin c), ((i : Nat) < n ∨ (j : Nat) < n) → (i : Nat) ≠ j → H i j = 0

theorem GE.diag_row {n : Nat} {E : Matrix (Fin r) (Fin r) R} (h : GE n E) {H : Matrix (Fin r) (Fin c) R} (hH : DiagTo n H) :
    DiagTo n (E * H) ∧ ∀ (i : Fin r) (j : Fin c), (j : Nat) < n → (E * H) i j = H i j := by
  have key : ∀ (i : Fin r) (j : Fin c), (j : Nat) < n → (E * H) i j = H i j := by
    intro i j hj
    rw [Matrix.mul_apply]
    rw [show (∑ k, E i k * H k j) = ∑ k, (1 : Matrix (Fin r) (Fin r) R) i k * H k j from
      Finset.sum_congr rfl fun k _ => by
        by_cases hk : (k : Nat) = j
        · rw [h.one i k (.inr (by omega))]
        · rw [hH k j (.inr hj) hk, mul_zero, mul_zero], ← Matrix.mul_apply, Matrix.one_mul]
  refine ⟨?_, key⟩
  intro i j hij hne
  by_cases hi : (i : Nat) < n
  · rw [h.row_mul H i j hi, hH i j hij hne]
  · rw [key i j (by omega), hH i j hij hne]

theorem GE.diag_col {n : Nat} {F : Matrix (Fin c) (Fin c) R} (h : GE n F) {H : Matrix (Fin r) (Fin c) R} (hH : DiagTo n H) :
    DiagTo n (H * F) ∧ ∀ (i : Fin r) (j : Fin c), (i : Nat) < n → (H * F) i j = H i j := by
  have hT : DiagTo n H.transpose := fun i j hij hne => hH j i hij.symm (by omega)
  obtain ⟨h1, h2⟩ := h.transpose.diag_row hT
  rw [← Matrix.transpose_mul] at h1 h2
  exact ⟨fun i j hij hne => h1 j i hij.symm (by omega), fun i j hi => h2 j i hi⟩

/-- the diagonal entries below `n` and the shape are kept -/
theorem GE.diag {n : Nat} {E : Matrix (Fin r) (Fin r) R} (h : GE n E) {F : Matrix (Fin c) (Fin c) R} (h' : GE n F)
    {H : Matrix (Fin r) (Fin c) R} (hH : DiagTo n H) :
    DiagTo n (E * H * F) ∧ ∀ (i : Fin r) (j : Fin c), (i : Nat) < n → (j : Nat) < n → (E * H * F) i j = H i j := by
  obtain ⟨h1, h2⟩ := h.diag_row hH
  obtain ⟨h3, h4⟩ := h'.diag_col h1
  exact ⟨h3, fun i j hi hj => by rw [h4 i j hi, h2 i j hj]⟩

/-- there is a unimodular row vector, supported from `n` on, whose product with `H` is zero modulo `d` -/
def KerMod (n : Nat) (H : Matrix (Fin r) (Fin c) R) (d : R) : Prop :=
  ∃ y z : Fin r → R, (∀ i : Fin r, (i : Nat) < n → y i = 0) ∧ ∑ i, y i * z i = 1 ∧ ∀ j, d ∣ Matrix.vecMul y H j

theorem GE.kerMod {n : Nat} {E : Matrix (Fin r) (Fin r) R} (h : GE n E) {F : Matrix (Fin c) (Fin c) R}
    {H : Matrix (Fin r) (Fin c) R} {d : R} (hK : KerMod n H d) : KerMod n (E * H * F) d := by
  obtain ⟨y, z, hy, hyz, hd⟩ := hK
  refine ⟨Matrix.vecMul y E⁻¹, Matrix.mulVec E z, ?_, ?_, ?_⟩
  · intro i hi
    rw [Matrix.vecMul, dotProduct]
    apply Finset.sum_eq_zero
    intro k _
    rw [h.inv.one k i (.inr hi), Matrix.one_apply]
    split
    · rename_i hk; rw [hk, hy i hi, zero_mul]
    · rw [mul_zero]
  · have : Matrix.vecMul y E⁻¹ ⬝ᵥ Matrix.mulVec E z = y ⬝ᵥ z := by
      rw [Matrix.dotProduct_mulVec, Matrix.vecMul_vecMul, Matrix.nonsing_inv_mul E h.unit, Matrix.vecMul_one]
    exact this.trans hyz
  · intro j
    rw [Matrix.vecMul_vecMul, ← Matrix.mul_assoc, ← Matrix.mul_assoc, Matrix.nonsing_inv_mul E h.unit, Matrix.one_mul,
      ← Matrix.vecMul_vecMul, Matrix.vecMul, dotProduct]
    exact Finset.dvd_sum fun k _ => dvd_mul_of_dvd_left (hd k) _

/-- a diagonal matrix with such a vector -/
theorem KerMod.dvd {n : Nat} {H : Matrix (Fin r) (Fin c) R} {d L : R} (hK : KerMod n H d) (hrc : r ≤ c)
    (hdiag : ∀ (i : Fin r) (j : Fin c), (i : Nat) ≠ j → H i j = 0)
    (hL : ∀ (i : Fin r) (j : Fin c), n ≤ (i : Nat) → (i : Nat) = j → H i j ∣ L) : d ∣ L := by
  obtain ⟨y, z, hy, hyz, hd⟩ := hK
  have key : ∀ i : Fin r, d ∣ y i * L := by
    intro i
    by_cases hi : (i : Nat) < n
    · rw [hy i hi, zero_mul]; exact dvd_zero d
    · have hj := hd ⟨i, by omega⟩
      rw [Matrix.vecMul, dotProduct, Finset.sum_eq_single i] at hj
      · obtain ⟨t, ht⟩ := hL i ⟨i, by omega⟩ (by omega) rfl
        rw [ht, ← mul_assoc]
        exact dvd_mul_of_dvd_left hj _
      · intro k _ hk
        rw [hdiag k _ (by simpa [Fin.ext_iff] using hk), mul_zero]
      · simp
  have : L = ∑ i, (y i * L) * z i := by
    rw [show (∑ i, (y i * L) * z i) = (∑ i, y i * z i) * L by
      rw [Finset.sum_mul]; exact Finset.sum_congr rfl fun i _ => by ring, hyz, one_mul]
  rw [this]
  exact Finset.dvd_sum fun i _ => dvd_mul_of_dvd_left (key i) _

end

section
variable {α R : Type} [CommRing R] {v : α → R} {r c : Nat}

theorem ElemOp.act_eq_mul (op : ElemOp α) (H : Matrix (Fin r) (Fin c) R) : op.act v H = op.act v (1 : Matrix (Fin r) (Fin r) R) * H := by
  rw [← ElemOp.act_mul, Matrix.one_mul]

/-- an operation on the rows from `n` on -/
def ElemOp.From (n : Nat) : ElemOp α → Prop
  | .swap i j => n ≤ i ∧ n ≤ j
  | .unitMul i _ => n ≤ i
  | .addRowMul i j _ => n ≤ i ∧ n ≤ j
  | .twoInv i j _ _ _ _ => n ≤ i ∧ n ≤ j

theorem rowTwo_one_ge {n : Nat} (i j : Fin r) (hi : n ≤ (i : Nat)) (hj : n ≤ (j : Nat)) (x y z w : R) (k l : Fin r)
    (hkl : (k : Nat) < n ∨ (l : Nat) < n) : rowTwo (1 : Matrix (Fin r) (Fin r) R) i j x y z w k l = (1 : Matrix (Fin r) (Fin r) R) k l := by
  rw [rowTwo_apply]
  by_cases hkj : k = j
  · have h1 : i ≠ l := by intro e; subst e; subst hkj; omega
    have h2 : j ≠ l := by intro e; subst e; subst hkj; omega
    rw [if_pos hkj, Matrix.one_apply_ne h1, Matrix.one_apply_ne h2, hkj, Matrix.one_apply_ne h2]
    ring
  · rw [if_neg hkj]
    by_cases hki : k = i
    · have h1 : i ≠ l := by intro e; subst e; subst hki; omega
      have h2 : j ≠ l := by intro e; subst e; subst hki; omega
      rw [if_pos hki, Matrix.one_apply_ne h1, Matrix.one_apply_ne h2, hki, Matrix.one_apply_ne h1]
      ring
    · rw [if_neg hki]

theorem DomainOps.Models.act_ge {S : DomainOps α} (h : S.Models v) {n : Nat} {op : ElemOp α} (ho : op.Valid v r) (hn : op.From n) :
    GE n (op.act v (1 : Matrix (Fin r) (Fin r) R)) := by
  refine ⟨by rw [h.det_act ho, Matrix.det_one, mul_one]; exact h.isUnit_elemDet ho, ?_⟩
  intro k l hkl
  cases op with
  | swap i j =>
    unfold ElemOp.act
    dsimp only
    rw [dif_pos ⟨ho.1, ho.2.1⟩]
    exact rowTwo_one_ge _ _ hn.1 hn.2 _ _ _ _ k l hkl
  | addRowMul i j x =>
    unfold ElemOp.act
    dsimp only
    rw [dif_pos ⟨ho.1, ho.2.1⟩]
    exact rowTwo_one_ge _ _ hn.1 hn.2 _ _ _ _ k l hkl
  | unitMul i u =>
    unfold ElemOp.act
    dsimp only
    rw [dif_pos ho.1, rowScale_apply]
    by_cases hk : k = ⟨i, ho.1⟩
    · have h1 : (⟨i, ho.1⟩ : Fin r) ≠ l := by
        intro e; subst e; subst hk
        have : n ≤ i := hn
        simp at hkl; omega
      rw [if_pos hk, Matrix.one_apply_ne h1, mul_zero, hk, Matrix.one_apply_ne h1]
    · rw [if_neg hk]
  | twoInv i j x y z w =>
    unfold ElemOp.act
    dsimp only
    rw [dif_pos ⟨ho.1, ho.2.1⟩]
    exact rowTwo_one_ge _ _ hn.1 hn.2 _ _ _ _ k l hkl

/-- The invariant of the algorithm. -/
structure SmInv (v : α → R) (A : Matrix (Fin r) (Fin c) R) (st : SState α) (H : Matrix (Fin r) (Fin c) R) (U : Matrix (Fin r) (Fin r) R)
    (V : Matrix (Fin c) (Fin c) R) : Prop where
  m : st.m.Denotes v H
  u : st.u.Denotes v U
  v : st.v.Denotes v V
  mul : H = U * A * V
  detU : IsUnit U.det
  detV : IsUnit V.det

/-- the state `st` stores `H` and some invertible matrices that lead from `A` to `H` -/
def SHas (v : α → R) (A : Matrix (Fin r) (Fin c) R) (st : SState α) (H : Matrix (Fin r) (Fin c) R) : Prop := ∃ U V, SmInv v A st H U V

theorem DomainOps.Models.smithRow {S : DomainOps α} (h : S.Models v) {A H : Matrix (Fin r) (Fin c) R} {st : SState α}
    (hI : SHas v A st H) {op : ElemOp α} (ho : op.Valid v r) :
    ∃ st', S.smithRow op st = some st' ∧ SHas v A st' (op.act v H) := by
  obtain ⟨U, V, hI⟩ := hI
  obtain ⟨m', e1, h1⟩ := h.rowOp ho hI.m
  obtain ⟨u', e2, h2⟩ := h.rowOp ho hI.u
  refine ⟨⟨m', u', st.v⟩, ?_, op.act v U, V, h1, h2, hI.v, ?_, ?_, hI.detV⟩
  · unfold DomainOps.smithRow
    simp only [e1, e2, Option.bind_eq_bind, Option.bind_some]
  · rw [hI.mul, ElemOp.act_mul, ElemOp.act_mul]
  · rw [h.det_act ho]
    exact (h.isUnit_elemDet ho).mul hI.detU

theorem DomainOps.Models.smithCol {S : DomainOps α} (h : S.Models v) {A H : Matrix (Fin r) (Fin c) R} {st : SState α}
    (hI : SHas v A st H) {op : ElemOp α} (ho : op.Valid v c) :
    ∃ st', S.smithCol op st = some st' ∧ SHas v A st' (op.act v H.transpose).transpose := by
  obtain ⟨U, V, hI⟩ := hI
  obtain ⟨m', e1, h1⟩ := h.colOp ho hI.m
  obtain ⟨v', e2, h2⟩ := h.colOp ho hI.v
  refine ⟨⟨m', st.u, v'⟩, ?_, U, (op.act v V.transpose).transpose, h1, hI.u, h2, ?_, hI.detU, ?_⟩
  · unfold DomainOps.smithCol
    simp only [e1, e2, Option.bind_eq_bind, Option.bind_some]
  · rw [hI.mul, Matrix.transpose_mul, ElemOp.act_mul, Matrix.transpose_mul, Matrix.transpose_transpose]
  · rw [Matrix.det_transpose, h.det_act ho, Matrix.det_transpose]
    exact (h.isUnit_elemDet ho).mul hI.detV

end

end Verif.Rings
