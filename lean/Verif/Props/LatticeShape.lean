import Verif.Props.Lattice

/-! Equality of lattices of matrices of different shapes. -/

namespace Verif.Rings
open Matrix

/-- the position of an entry of an `r' × c'` matrix, in an `r × c` matrix with the same entries row after row -/
def shapeEquiv {r c r' c' : Nat} (e : r * c = r' * c') : Fin r' × Fin c' ≃ Fin r × Fin c :=
  finProdFinEquiv.trans ((finCongr e.symm).trans finProdFinEquiv.symm)

/-- the `r' × c'` matrix with the entries of an `r × c` matrix, both read row after row -/
def reshape {R : Type} [CommRing R] {r c r' c' : Nat} (e : r * c = r' * c') : Matrix (Fin r) (Fin c) R ≃ₗ[R] Matrix (Fin r') (Fin c') R where
  toFun X := Matrix.of fun i j => X (shapeEquiv e (i, j)).1 (shapeEquiv e (i, j)).2
  invFun Y := Matrix.of fun i j => Y ((shapeEquiv e).symm (i, j)).1 ((shapeEquiv e).symm (i, j)).2
  map_add' X Y := rfl
  map_smul' a X := rfl
  left_inv X := by
    ext i j
    simp
  right_inv Y := by
    ext i j
    simp

theorem denotes_cast {α R : Type} {v : α → R} {k n n' : Nat} (h : n = n') {m : Mat α} {X : Matrix (Fin k) (Fin n) R} (hm : m.Denotes v X) :
    m.Denotes v (X.submatrix id (finCongr h.symm)) := by
  subst h
  exact hm

theorem reshape_denotes {α R : Type} [CommRing R] {v : α → R} {a : LinLat α} {r c r' c' : Nat} (e : r * c = r' * c')
    {N : Submodule R (Matrix (Fin r) (Fin c) R)} (ha : a.Denotes v N) :
    (⟨a.metamatrix, r', c'⟩ : LinLat α).Denotes v (N.map (reshape (R := R) e).toLinearMap) := by
  obtain ⟨k, B, hB, hN⟩ := ha
  refine ⟨k, fun n => reshape e (B n), ⟨rfl, rfl, ?_, ?_⟩, ?_⟩
  · have := denotes_cast e hB.denotes
    convert this using 1
    ext n idx
    have h1 : finProdFinEquiv (idx.divNat, idx.modNat) = idx := finProdFinEquiv.apply_symm_apply idx
    simp only [Matrix.of_apply, Matrix.submatrix_apply, id]
    change B n (shapeEquiv e (idx.divNat, idx.modNat)).1 (shapeEquiv e (idx.divNat, idx.modNat)).2 = _
    simp only [shapeEquiv, Equiv.trans_apply, h1]
    rfl
  · exact hB.indep.map' _ (reshape e).ker
  · rw [← hN, Submodule.map_span, ← Set.range_comp]
    rfl

/-- C189, the part that holds: on lattices of matrices of the same shape `equal` decides equality. -/
theorem C189_same_shape_partial {α R : Type} [CommRing R] {S : BezoutOps α} {v : α → R} (h : S.Models v) {a b : LinLat α} {r c : Nat}
    {N N' : Submodule R (Matrix (Fin r) (Fin c) R)} (ha : a.Denotes v N) (hb : b.Denotes v N') :
    ∃ x, S.latEqual a b = some x ∧ (x = true ↔ N = N') := h.latEqual ha hb

/-- C189, violated: for every lattice of `r × c` matrices and all other numbers of rows and columns with the same product, there is a lattice of
`r' × c'` matrices (the same matrices with the entries put in the other shape) for which `equal` answers true. -/
theorem C189_other_shape_wrong {α R : Type} [CommRing R] {S : BezoutOps α} {v : α → R} (h : S.Models v) {a : LinLat α} {r c r' c' : Nat}
    (e : r * c = r' * c') {N : Submodule R (Matrix (Fin r) (Fin c) R)} (ha : a.Denotes v N) :
    ∃ (b : LinLat α) (N' : Submodule R (Matrix (Fin r') (Fin c') R)), b.Denotes v N' ∧ b.rows = r' ∧ b.cols = c' ∧
      S.latEqual a b = some true ∧ S.latEqual b a = some true := by
  refine ⟨⟨a.metamatrix, r', c'⟩, _, reshape_denotes e ha, rfl, rfl, ?_⟩
  obtain ⟨x, hx, hx'⟩ := h.latEqual ha ha
  rw [hx'.2 rfl] at hx
  exact ⟨hx, hx⟩

/-- C189, violated: on lattices of matrices with different numbers of entries `equal` panics. -/
theorem C189_other_size_panics_wrong {α R : Type} [CommRing R] {S : BezoutOps α} {v : α → R} {a b : LinLat α} {r c r' c' : Nat}
    (e : r * c ≠ r' * c') {N : Submodule R (Matrix (Fin r) (Fin c) R)} {N' : Submodule R (Matrix (Fin r') (Fin c') R)} (ha : a.Denotes v N)
    (hb : b.Denotes v N') : S.latEqual a b = none := by
  obtain ⟨k, B, hB, -⟩ := ha
  obtain ⟨k', B', hB', -⟩ := hb
  have h1 : (a.metamatrix.cols == b.metamatrix.cols) = false := by
    rw [hB.denotes.cols, hB'.denotes.cols]
    simpa using e
  unfold BezoutOps.latEqual BezoutOps.latContainsSub
  rw [h1]
  rfl

/-- the hypotheses are met: the multiples of a row of two numbers, as `1 × 2` matrices and as `2 × 1` matrices -/
example : ∃ (b : LinLat Int) (N' : Submodule Int (Matrix (Fin 2) (Fin 1) Int)), b.Denotes (id : Int → Int) N' ∧ b.rows = 2 ∧ b.cols = 1 ∧
    intOps.bezout.latEqual ⟨⟨1, 2, false, false, false, [2, 4]⟩, 1, 2⟩ b = some true ∧
    intOps.bezout.latEqual b ⟨⟨1, 2, false, false, false, [2, 4]⟩, 1, 2⟩ = some true := by
  refine C189_other_shape_wrong intOps_models.bezout (r := 1) (c := 2) (by decide) (N := Submodule.span Int {!![2, 4]})
    ⟨1, fun _ => !![2, 4], ⟨rfl, rfl, ?_, ?_⟩, by simp⟩
  · refine ⟨rfl, rfl, rfl, ?_⟩
    intro i j
    fin_cases i; fin_cases j <;> exact ⟨_, rfl, rfl⟩
  · rw [linearIndependent_unique_iff]
    intro h
    have := congrFun (congrFun h 0) 0
    simp at this

end Verif.Rings
