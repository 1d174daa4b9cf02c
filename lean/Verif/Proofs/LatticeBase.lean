import Verif.Proofs.HermiteApp
import Verif.Spec.Lattice

/-! # Lattices: flattening, bases, kernels -/

namespace Verif.Rings

section
variable {α R : Type}

theorem Mat.Denotes.congr {v : α → R} {m : Mat α} {r c r' c' : Nat} {A : Matrix (Fin r) (Fin c) R} (h : m.Denotes v A)
    {A' : Matrix (Fin r') (Fin c') R} (hr : r' = r) (hc : c' = c) (he : ∀ i j, A' i j = A (Fin.cast hr i) (Fin.cast hc j)) :
    m.Denotes v A' := by
  subst hr hc
  have : A' = A := by ext i j; rw [he]; rfl
  rw [this]; exact h

theorem Mat.Denotes.rowsList {v : α → R} {m : Mat α} {r c : Nat} {A : Matrix (Fin r) (Fin c) R} (h : m.Denotes v A) :
    m.Denotes v (rowsMatrix (List.ofFn fun i => fun j => A i j)) := by
  refine h.congr (by simp) rfl ?_
  intro i j
  simp [rowsMatrix]
  rfl

/-- Two blocks on top of each other. -/
theorem Mat.joinRows_two {v : α → R} {m1 m2 : Mat α} {r1 r2 c : Nat} {A : Matrix (Fin r1) (Fin c) R} {B : Matrix (Fin r2) (Fin c) R}
    (h1 : m1.Denotes v A) (h2 : m2.Denotes v B) :
    ∃ s, Mat.joinRows c [m1, m2] = some s ∧ s.Denotes v (Matrix.of (Fin.append A.row B.row)) := by
  obtain ⟨s, e, hs⟩ := Mat.joinRows_spec (mats := [m1, m2]) (.cons h1.rowsList (.cons h2.rowsList .nil))
  refine ⟨s, e, hs.congr (by simp) rfl ?_⟩
  intro i j
  refine Fin.addCases (fun i => ?_) (fun i => ?_) i
  · simp only [Matrix.of_apply, Fin.append_left, rowsMatrix, List.flatten_cons, List.flatten_nil, List.append_nil, Fin.getElem_fin, Fin.val_cast, Fin.val_castAdd]
    rw [List.getElem_append_left (by simp)]
    simp [Matrix.row]
  · simp only [Matrix.of_apply, Fin.append_right, rowsMatrix, List.flatten_cons, List.flatten_nil, List.append_nil, Fin.getElem_fin, Fin.val_cast, Fin.val_natAdd]
    rw [List.getElem_append_right (by simp)]
    simp [Matrix.row]

theorem MatsDenote.mapM {v : α → R} {k r c : Nat} {B : Fin k → Matrix (Fin r) (Fin c) R} {f : Nat → Option (Mat α)}
    (h : ∀ n : Fin k, ∃ m, f n = some m ∧ m.Denotes v (B n)) : ∃ mats, (List.range k).mapM f = some mats ∧ MatsDenote v mats B := by
  choose g hg1 hg2 using h
  by_cases hk : k = 0
  · subst hk
    exact ⟨[], rfl, rfl, fun n => n.elim0⟩
  · have e := mapM_eq_map (List.range k) (f := f) (g := fun n => if hn : n < k then g ⟨n, hn⟩ else g ⟨0, by omega⟩) (by
      intro n hn
      rw [dif_pos (by simpa using hn)]
      exact hg1 ⟨n, by simpa using hn⟩)
    refine ⟨_, e, by simp, ?_⟩
    intro n
    refine ⟨g n, ?_, hg2 n⟩
    simp

theorem MatsDenote.mapM_from {v : α → R} {a b k r c : Nat} {B : Fin k → Matrix (Fin r) (Fin c) R} {f : Nat → Option (Mat α)} (hk : b - a = k)
    (h : ∀ n : Fin k, ∃ m, f (a + n) = some m ∧ m.Denotes v (B n)) : ∃ mats, (rangeFrom a b).mapM f = some mats ∧ MatsDenote v mats B := by
  obtain ⟨mats, e, hm⟩ := MatsDenote.mapM (f := fun n => f (a + n)) h
  refine ⟨mats, ?_, hm⟩
  rw [← e, rangeFrom, hk, List.range'_eq_map_range, List.mapM_map]
  rfl

theorem latRc_ok {rows cols idx : Nat} (h : idx < rows * cols) : latRc rows cols idx = some (idx / cols, idx % cols) := by
  unfold latRc
  rw [if_neg (by omega)]

theorem latIdx_ok {rows cols r c : Nat} (hr : r < rows) (hc : c < cols) : latIdx rows cols r c = some (c + r * cols) := by
  unfold latIdx
  rw [if_neg (by omega)]

theorem Mat.construct_denotes {v : α → R} {r c : Nat} {mk : Nat → Nat → Option α} {A : Matrix (Fin r) (Fin c) R}
    (h : ∀ (i : Fin r) (j : Fin c), ∃ x, mk i j = some x ∧ v x = A i j) : ∃ m, Mat.construct r c mk = some m ∧ m.Denotes v A := by
  choose f hf1 hf2 using h
  by_cases h0 : r = 0 ∨ c = 0
  · have h00 : r * c = 0 := by rcases h0 with h0 | h0 <;> simp [h0]
    refine ⟨⟨r, c, false, false, false, []⟩, ?_, ?_⟩
    · unfold Mat.construct
      rw [h00]
      rfl
    · refine ⟨rfl, rfl, h00.symm, ?_⟩
      intro i j
      rcases h0 with h0 | h0
      · exact absurd i.2 (by omega)
      · exact absurd j.2 (by omega)
  · have hr : 0 < r := by omega
    have hc : 0 < c := by omega
    obtain ⟨m, e, hrep, -⟩ := Mat.construct_rep (R := r) (C := c) (mk := mk)
      (f := fun i j => if hn : i < r ∧ j < c then f ⟨i, hn.1⟩ ⟨j, hn.2⟩ else f ⟨0, hr⟩ ⟨0, hc⟩) (by
        intro i j hi hj
        rw [dif_pos ⟨hi, hj⟩]
        exact hf1 ⟨i, hi⟩ ⟨j, hj⟩)
    refine ⟨m, e, hrep.denotes' fun i j => ?_⟩
    rw [dif_pos ⟨i.2, j.2⟩]
    exact hf2 i j

theorem matsToRows_spec {v : α → R} {mats : List (Mat α)} {k r c : Nat} {B : Fin k → Matrix (Fin r) (Fin c) R} (h : MatsDenote v mats B) :
    ∃ m, matsToRows r c mats = some m ∧
      m.Denotes v (Matrix.of fun (n : Fin k) (idx : Fin (r * c)) => B n idx.divNat idx.modNat) := by
  obtain ⟨hl, hm⟩ := h
  have hall : (mats.all fun mat => mat.rows == r && mat.cols == c) = true := by
    rw [List.all_eq_true]
    intro m hmem
    obtain ⟨n, hn, rfl⟩ := List.mem_iff_getElem.1 hmem
    obtain ⟨m', e, hd⟩ := hm ⟨n, by omega⟩
    rw [List.getElem?_eq_getElem hn] at e
    cases e
    simp [hd.rows, hd.cols]
  unfold matsToRows
  rw [if_pos hall]
  have hent : ∀ (n : Fin k) (idx : Fin (r * c)), ∃ x, matsToRowsEntry r c mats n idx = some x ∧ v x = B n idx.divNat idx.modNat := by
    intro n idx
    unfold matsToRowsEntry
    obtain ⟨m', e, hd⟩ := hm n
    rw [latRc_ok idx.2, e]
    obtain ⟨x, hx, hv⟩ := hd.get idx.divNat idx.modNat
    exact ⟨x, hx, hv⟩
  rw [hl]
  exact Mat.construct_denotes hent

end

section Flat
variable {R : Type} [CommRing R] {r c : Nat}

/-- Flatten a matrix row by row. -/
def flatL (R : Type) [CommRing R] (r c : Nat) : Matrix (Fin r) (Fin c) R ≃ₗ[R] (Fin (r * c) → R) where
  toFun A := fun idx => A idx.divNat idx.modNat
  invFun x := Matrix.of fun i j => x (finProdFinEquiv (i, j))
  map_add' A B := rfl
  map_smul' a A := rfl
  left_inv A := by
    ext i j
    have h := finProdFinEquiv.symm_apply_apply (i, j)
    simp only [Matrix.of_apply]
    have h1 : (finProdFinEquiv (i, j)).divNat = i := congrArg Prod.fst h
    have h2 : (finProdFinEquiv (i, j)).modNat = j := congrArg Prod.snd h
    rw [h1, h2]
  right_inv x := by
    funext idx
    simp only [Matrix.of_apply]
    exact congrArg x (finProdFinEquiv.apply_symm_apply idx)

theorem flatL_apply (A : Matrix (Fin r) (Fin c) R) (idx : Fin (r * c)) : flatL R r c A idx = A idx.divNat idx.modNat := rfl

theorem flatL_symm_apply (x : Fin (r * c) → R) (i : Fin r) (j : Fin c) : (flatL R r c).symm x i j = x (finProdFinEquiv (i, j)) := rfl

/-- The stored matrix has linearly independent rows, which span `N`. -/
def MetaBasis {α : Type} (v : α → R) (m : Mat α) {n : Nat} (N : Submodule R (Fin n → R)) : Prop :=
  ∃ (k : Nat) (B : Matrix (Fin k) (Fin n) R), m.Denotes v B ∧ LinearIndependent R B.row ∧ Submodule.span R (Set.range B.row) = N

theorem LinLat.denotes_iff {α : Type} {v : α → R} {lat : LinLat α} {N : Submodule R (Matrix (Fin r) (Fin c) R)} :
    lat.Denotes v N ↔ lat.rows = r ∧ lat.cols = c ∧ MetaBasis v lat.metamatrix (N.map (flatL R r c).toLinearMap) := by
  constructor
  · rintro ⟨k, B, ⟨h1, h2, h3, h4⟩, h5⟩
    refine ⟨h1, h2, k, _, h3, ?_, ?_⟩
    · exact h4.map' (flatL R r c).toLinearMap (LinearEquiv.ker _)
    · rw [← h5, Submodule.map_span, ← Set.range_comp]
      rfl
  · rintro ⟨h1, h2, k, B, h3, h4, h5⟩
    refine ⟨k, fun n => (flatL R r c).symm (B n), ⟨h1, h2, ?_, ?_⟩, ?_⟩
    · have : (Matrix.of fun (n : Fin k) (idx : Fin (r * c)) => ((flatL R r c).symm (B n)) idx.divNat idx.modNat) = B := by
        ext n idx
        exact congrFun ((flatL R r c).apply_symm_apply (B n)) idx
      rw [this]; exact h3
    · exact h4.map' (flatL R r c).symm.toLinearMap (LinearEquiv.ker _)
    · have : (fun n => (flatL R r c).symm (B n)) = (flatL R r c).symm.toLinearMap ∘ B.row := rfl
      rw [this, Set.range_comp, ← Submodule.map_span, h5, ← Submodule.map_comp]
      simp

end Flat

section Bez
variable {α R : Type} [CommRing R] {S : BezoutOps α} {v : α → R} (h : S.Models v)
include h

/-- The rank is the number of rows exactly when the rows are linearly independent. -/
theorem BezoutOps.Models.matRank_rows {r c : Nat} {m : Mat α} {A : Matrix (Fin r) (Fin c) R} (hm : m.Denotes v A) :
    ∃ k, S.matRank m = some k ∧ k ≤ r ∧ (k = r ↔ LinearIndependent R A.row) := by
  haveI := h.toGcd.toFav.toDomain.domain
  obtain ⟨res, H, U, e, hH, hU, hmul, hdet, hunit, hE, -⟩ := h.rowHermite hm
  refine ⟨res.pivs.length, by unfold BezoutOps.matRank; rw [e]; rfl, hE.le, ?_⟩
  rw [← Matrix.vecMul_injective_iff]
  have hUdet : IsUnit U.det := by rw [hdet]; exact hunit
  constructor
  · intro hk
    have hHi : Function.Injective H.vecMul := by
      rw [Matrix.vecMul_injective_iff]
      have hi := hE.linearIndependent
      have : H.row = (fun (k : Fin res.pivs.length) (j : Fin c) => H (Fin.castLE hE.le k) j) ∘ Fin.cast hk.symm := by
        funext i j
        rfl
      rw [this]
      exact hi.comp _ (Fin.cast_injective _)
    intro x y hxy
    have hxy' : (Matrix.vecMul x U⁻¹) = Matrix.vecMul y U⁻¹ := by
      apply hHi
      change Matrix.vecMul _ H = Matrix.vecMul _ H
      rw [hmul, Matrix.vecMul_vecMul, Matrix.vecMul_vecMul, ← Matrix.mul_assoc, Matrix.nonsing_inv_mul _ hUdet, Matrix.one_mul]
      exact hxy
    have := congrArg (fun z => Matrix.vecMul z U) hxy'
    simpa [Matrix.vecMul_vecMul, Matrix.nonsing_inv_mul _ hUdet] using this
  · intro hi
    by_contra hne
    have hlt : res.pivs.length < r := by have := hE.le; omega
    have hz : Matrix.vecMul (Pi.single (⟨res.pivs.length, hlt⟩ : Fin r) (1 : R)) H = 0 := by
      rw [Matrix.single_one_vecMul]
      funext j
      exact hE.below ⟨_, hlt⟩ j (le_refl _)
    rw [hmul, ← Matrix.vecMul_vecMul] at hz
    have h0 : Matrix.vecMul (Pi.single (⟨res.pivs.length, hlt⟩ : Fin r) (1 : R)) U = 0 := by
      apply hi
      change Matrix.vecMul _ A = Matrix.vecMul _ A
      rw [hz, Matrix.zero_vecMul]
    have := congrArg (fun z => Matrix.vecMul z U⁻¹) h0
    simp only [Matrix.vecMul_vecMul, Matrix.mul_nonsing_inv _ hUdet, Matrix.vecMul_one, Matrix.zero_vecMul] at this
    have := congrFun this ⟨res.pivs.length, hlt⟩
    simp at this

theorem BezoutOps.Models.latOk {lat : LinLat α} {k n : Nat} {B : Matrix (Fin k) (Fin n) R} (hm : lat.metamatrix.Denotes v B)
    (hn : lat.rows * lat.cols = n) : ∃ b, S.latOk lat = some b ∧ (b = true ↔ LinearIndependent R B.row) := by
  unfold BezoutOps.latOk
  rw [if_neg (by rw [hm.cols, hn]; simp)]
  obtain ⟨k', e, -, he⟩ := h.matRank_rows hm
  rw [e, hm.rows]
  exact ⟨_, rfl, by simpa using he⟩

theorem BezoutOps.Models.latChecked {lat : LinLat α} {k n : Nat} {B : Matrix (Fin k) (Fin n) R} (hm : lat.metamatrix.Denotes v B)
    (hn : lat.rows * lat.cols = n) (hi : LinearIndependent R B.row) : S.latChecked lat = some lat := by
  obtain ⟨b, e, hb⟩ := h.latOk hm hn
  unfold BezoutOps.latChecked
  rw [e]
  simp [hb.2 hi, assertThat]

theorem BezoutOps.Models.latChecked_not {lat : LinLat α} {k n : Nat} {B : Matrix (Fin k) (Fin n) R} (hm : lat.metamatrix.Denotes v B)
    (hn : lat.rows * lat.cols = n) (hi : ¬ LinearIndependent R B.row) : S.latChecked lat = none := by
  obtain ⟨b, e, hb⟩ := h.latOk hm hn
  unfold BezoutOps.latChecked
  rw [e]
  have : b = false := by
    cases b with
    | false => rfl
    | true => exact absurd (hb.1 rfl) hi
  simp [this, assertThat]

/-- The non-zero rows of the Hermite form are a basis of the row span. -/
theorem BezoutOps.Models.hermiteTop {r c : Nat} {m : Mat α} {A : Matrix (Fin r) (Fin c) R} (hm : m.Denotes v A) :
    ∃ res mm, S.rowHermite m = some res ∧ res.h.submatrix (List.range res.pivs.length) (List.range c) = some mm ∧
      MetaBasis v mm (Submodule.span R (Set.range A.row)) := by
  haveI := h.toGcd.toFav.toDomain.domain
  obtain ⟨res, H, U, e, hH, hU, hmul, hdet, hunit, hE, -⟩ := h.rowHermite hm
  have hUdet : IsUnit U.det := by rw [hdet]; exact hunit
  obtain ⟨mm, emm, hmm⟩ := hH.submatrix (List.range res.pivs.length) (List.range c) (by simp) (by simp) (Fin.castLE hE.le) id
    (by intro i; simp) (by intro i; simp)
  refine ⟨res, mm, e, emm, res.pivs.length, _, hmm, hE.linearIndependent, ?_⟩
  apply le_antisymm
  · rw [Submodule.span_le]
    rintro _ ⟨k, rfl⟩
    have : (H.submatrix (Fin.castLE hE.le) id).row k = Matrix.vecMul (U (Fin.castLE hE.le k)) A := by
      have h1 : H (Fin.castLE hE.le k) = Matrix.vecMul (U (Fin.castLE hE.le k)) A := by
        generalize Fin.castLE hE.le k = k'
        rw [hmul]; rfl
      exact h1
    rw [this, ← _root_.range_vecMulLinear]
    exact ⟨_, rfl⟩
  · rw [Submodule.span_le]
    rintro _ ⟨i, rfl⟩
    have : A.row i = Matrix.vecMul (U⁻¹ i) H := by
      have h1 : U⁻¹ * H = A := by rw [hmul, ← Matrix.mul_assoc, Matrix.nonsing_inv_mul _ hUdet, Matrix.one_mul]
      funext j
      change A i j = _
      conv_lhs => rw [← h1]
      rfl
    rw [this, Matrix.vecMul_eq_sum]
    refine Submodule.sum_mem _ fun k _ => Submodule.smul_mem _ _ ?_
    by_cases hk : (k : Nat) < res.pivs.length
    · exact Submodule.subset_span ⟨⟨k, hk⟩, rfl⟩
    · have : H k = 0 := by funext j; exact hE.below k j (by omega)
      rw [this]
      exact Submodule.zero_mem _

theorem BezoutOps.Models.latFromSpan {mats : List (Mat α)} {k r c : Nat} {B : Fin k → Matrix (Fin r) (Fin c) R} (hB : MatsDenote v mats B) :
    ∃ lat, S.latFromSpan r c mats = some lat ∧ lat.Denotes v (Submodule.span R (Set.range B)) := by
  obtain ⟨m, em, hm⟩ := matsToRows_spec hB
  obtain ⟨res, mm, e1, e2, k', B', hB', hi, hs⟩ := h.hermiteTop hm
  refine ⟨⟨mm, r, c⟩, ?_, ?_⟩
  · unfold BezoutOps.latFromSpan
    rw [em, Option.bind_eq_bind, Option.bind_some, e1, Option.bind_eq_bind, Option.bind_some, e2, Option.bind_some]
    exact h.latChecked hB' rfl hi
  · rw [LinLat.denotes_iff]
    refine ⟨rfl, rfl, k', B', hB', hi, ?_⟩
    rw [hs, Submodule.map_span, ← Set.range_comp]
    rfl

theorem BezoutOps.Models.latFromBasis {mats : List (Mat α)} {k r c : Nat} {B : Fin k → Matrix (Fin r) (Fin c) R} (hB : MatsDenote v mats B)
    (hi : LinearIndependent R B) : ∃ lat, S.latFromBasis r c mats = some lat ∧ lat.HasBasis v B := by
  obtain ⟨m, em, hm⟩ := matsToRows_spec hB
  refine ⟨⟨m, r, c⟩, ?_, rfl, rfl, hm, hi⟩
  unfold BezoutOps.latFromBasis
  rw [em, Option.bind_eq_bind, Option.bind_some]
  exact h.latChecked hm rfl (hi.map' (flatL R r c).toLinearMap (LinearEquiv.ker _))

theorem BezoutOps.Models.latFromBasis_not {mats : List (Mat α)} {k r c : Nat} {B : Fin k → Matrix (Fin r) (Fin c) R}
    (hB : MatsDenote v mats B) (hi : ¬ LinearIndependent R B) : S.latFromBasis r c mats = none := by
  obtain ⟨m, em, hm⟩ := matsToRows_spec hB
  unfold BezoutOps.latFromBasis
  rw [em, Option.bind_eq_bind, Option.bind_some]
  refine h.latChecked_not hm rfl fun hi' => hi ?_
  exact (LinearMap.linearIndependent_iff (flatL R r c).toLinearMap (LinearEquiv.ker _)).1 hi'

/-- The last rows of `U` are a basis of the kernel. -/
theorem BezoutOps.Models.hermiteKernel {r c : Nat} {m : Mat α} {A : Matrix (Fin r) (Fin c) R} (hm : m.Denotes v A) :
    ∃ (res : HermiteResult α) (U : Matrix (Fin r) (Fin r) R) (k : Nat) (f : Fin k → Fin r), S.rowHermite m = some res ∧ res.u.Denotes v U ∧
      r - res.pivs.length = k ∧ (∀ n, (f n : Nat) = res.pivs.length + n) ∧
      LinearIndependent R (fun n => U (f n)) ∧
      ∀ x : Fin r → R, x ∈ Submodule.span R (Set.range fun n => U (f n)) ↔ Matrix.vecMul x A = 0 := by
  haveI := h.toGcd.toFav.toDomain.domain
  obtain ⟨res, H, U, e, hH, hU, hmul, hdet, hunit, hE, -⟩ := h.rowHermite hm
  have hUdet : IsUnit U.det := by rw [hdet]; exact hunit
  have hle := hE.le
  refine ⟨res, U, r - res.pivs.length, fun n => ⟨res.pivs.length + n, by omega⟩, e, hU, rfl, fun n => rfl, ?_, ?_⟩
  · have hi : LinearIndependent R U.row := by
      rw [← Matrix.vecMul_injective_iff]
      intro x y hxy
      have := congrArg (fun z => Matrix.vecMul z U⁻¹) hxy
      simpa [Matrix.vecMul_vecMul, Matrix.mul_nonsing_inv _ hUdet] using this
    refine hi.comp _ ?_
    intro a b hab
    rw [Fin.mk.injEq] at hab
    exact Fin.ext (by omega)
  · intro x
    constructor
    · intro hx
      induction hx using Submodule.span_induction with
      | mem x hx =>
        obtain ⟨n, rfl⟩ := hx
        have : Matrix.vecMul (U ⟨res.pivs.length + n, by omega⟩) A = H ⟨res.pivs.length + n, by omega⟩ := by rw [hmul]; rfl
        rw [this]
        funext j
        exact hE.below _ j (by simp)
      | zero => exact Matrix.zero_vecMul _
      | add x y _ _ hx hy => rw [Matrix.add_vecMul, hx, hy, add_zero]
      | smul a x _ hx => rw [Matrix.smul_vecMul, hx, smul_zero]
    · intro hx
      have hyH : Matrix.vecMul (Matrix.vecMul x U⁻¹) H = 0 := by
        rw [hmul, Matrix.vecMul_vecMul, ← Matrix.mul_assoc, Matrix.nonsing_inv_mul _ hUdet, Matrix.one_mul, hx]
      have hxU : x = Matrix.vecMul (Matrix.vecMul x U⁻¹) U := by
        rw [Matrix.vecMul_vecMul, Matrix.nonsing_inv_mul _ hUdet, Matrix.vecMul_one]
      generalize Matrix.vecMul x U⁻¹ = y at hyH hxU
      have hy0 : ∀ i : Fin r, (i : Nat) < res.pivs.length → y i = 0 := by
        intro i hi
        have hI := hE.linearIndependent
        rw [Fintype.linearIndependent_iff] at hI
        refine hI (fun k => y (Fin.castLE hle k)) ?_ ⟨i, hi⟩
        rw [Matrix.vecMul_eq_sum] at hyH
        rw [← hyH]
        refine Finset.sum_of_injOn (Fin.castLE hle) (fun a _ b _ hab => Fin.castLE_injective _ hab)
          (fun _ _ => Finset.mem_coe.2 (Finset.mem_univ _)) ?_ (fun _ _ => rfl)
        intro i _ hi'
        have : H i = 0 := by
          funext j
          refine hE.below i j ?_
          by_contra hlt
          exact hi' ⟨⟨i, by omega⟩, by simp, rfl⟩
        rw [this, smul_zero]
      rw [hxU, Matrix.vecMul_eq_sum]
      refine Submodule.sum_mem _ fun i _ => ?_
      by_cases hi : (i : Nat) < res.pivs.length
      · rw [hy0 i hi, zero_smul]
        exact Submodule.zero_mem _
      · refine Submodule.smul_mem _ _ (Submodule.subset_span ⟨⟨i - res.pivs.length, by omega⟩, ?_⟩)
        change U _ = U i
        congr 1
        exact Fin.ext (by change res.pivs.length + (i - res.pivs.length) = (i : Nat); omega)

end Bez

end Verif.Rings
