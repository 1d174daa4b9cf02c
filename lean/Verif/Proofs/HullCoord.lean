import Mathlib.LinearAlgebra.AffineSpace.Basis
import Mathlib.LinearAlgebra.AffineSpace.FiniteDimensional
import Mathlib.Analysis.Convex.Combination
import Mathlib.Tactic.Linarith
import Mathlib.Tactic.LinearCombination
import Mathlib.Tactic.FieldSimp

/-! # Barycentric coordinates of full-dimensional simplices -/

namespace Verif.Geometry

open Classical

section
variable {K E : Type} [Field K] [AddCommGroup E] [Module K E] [FiniteDimensional K E]

variable (K) in
/-- `T` is the set of vertices of a simplex of full dimension. -/
structure Full (T : Finset E) : Prop where
  indep : AffineIndependent K (fun x : T => (x : E))
  card : T.card = Module.finrank K E + 1

/-- the vertices as an affine basis -/
noncomputable def Full.basis {T : Finset E} (h : Full K T) : AffineBasis T K E :=
  ⟨fun x => x, h.indep, h.indep.affineSpan_eq_top_iff_card_eq_finrank_add_one.2 (by simpa using h.card)⟩

variable (K) in
/-- the barycentric coordinate number `i` -/
noncomputable def crd (T : Finset E) (i : E) : E →ᵃ[K] K :=
  if h : Full K T ∧ i ∈ T then h.1.basis.coord ⟨i, h.2⟩ else AffineMap.const K E 0

variable {T T' R : Finset E} (h : Full K T)
include h

theorem crd_self {i : E} (hi : i ∈ T) : crd K T i i = 1 := by
  unfold crd
  rw [dif_pos ⟨h, hi⟩]
  exact h.basis.coord_apply_eq ⟨i, hi⟩

theorem crd_ne {i j : E} (hi : i ∈ T) (hj : j ∈ T) (hij : i ≠ j) : crd K T i j = 0 := by
  unfold crd
  rw [dif_pos ⟨h, hi⟩]
  exact h.basis.coord_apply_ne (i := ⟨i, hi⟩) (j := ⟨j, hj⟩) (by simpa using hij)

theorem crd_sum (x : E) : ∑ i ∈ T, crd K T i x = 1 := by
  rw [← h.basis.sum_coord_apply_eq_one x, ← Finset.sum_coe_sort T]
  apply Finset.sum_congr rfl
  rintro ⟨i, hi⟩ -
  unfold crd
  rw [dif_pos ⟨h, hi⟩]

theorem crd_comb (x : E) : ∑ i ∈ T, crd K T i x • i = x := by
  conv_rhs => rw [← h.basis.linear_combination_coord_eq_self x]
  rw [← Finset.sum_coe_sort T]
  apply Finset.sum_congr rfl
  rintro ⟨i, hi⟩ -
  unfold crd
  rw [dif_pos ⟨h, hi⟩]
  rfl

omit h [FiniteDimensional K E] in
theorem affine_comb (l : E →ᵃ[K] K) (s : Finset E) (w : E → K) (hw : ∑ i ∈ s, w i = 1) : l (∑ i ∈ s, w i • i) = ∑ i ∈ s, w i * l i := by
  have h1 := Finset.map_affineCombination s (fun i : E => i) w hw l
  rw [Finset.affineCombination_eq_linear_combination _ _ _ hw, Finset.affineCombination_eq_linear_combination _ _ _ hw] at h1
  simpa using h1

/-- an affine function is determined by its values at the vertices -/
theorem affine_eq (l : E →ᵃ[K] K) (x : E) : l x = ∑ i ∈ T, crd K T i x * l i := by
  conv_lhs => rw [← crd_comb h x]
  exact affine_comb l T _ (crd_sum h x)

/-- coordinates are unique -/
theorem crd_unique {w : E → K} {x : E} (hw : ∑ i ∈ T, w i = 1) (hx : ∑ i ∈ T, w i • i = x) {i : E} (hi : i ∈ T) : crd K T i x = w i := by
  rw [← hx, affine_comb _ _ _ hw, Finset.sum_eq_single i]
  · rw [crd_self h hi, mul_one]
  · intro j hj hji
    rw [crd_ne h hi hj (Ne.symm hji), mul_zero]
  · exact fun hh => absurd hi hh

/-- an affine function that vanishes at all vertices but one -/
theorem affine_eq_single (l : E →ᵃ[K] K) {i : E} (hi : i ∈ T) (hl : ∀ j ∈ T.erase i, l j = 0) (x : E) : l x = crd K T i x * l i := by
  rw [affine_eq h l x, Finset.sum_eq_single i]
  · intro j hj hji
    rw [hl j (Finset.mem_erase.2 ⟨hji, hj⟩), mul_zero]
  · exact fun hh => absurd hi hh

theorem affine_ext_zero (l : E →ᵃ[K] K) (hl : ∀ j ∈ T, l j = 0) (x : E) : l x = 0 := by
  rw [affine_eq h l x]
  exact Finset.sum_eq_zero fun i hi => by rw [hl i hi, mul_zero]

omit h [FiniteDimensional K E] in
/-- along a line an affine function is affine -/
theorem affine_line (l : E →ᵃ[K] K) (x y : E) (t : K) : l (AffineMap.lineMap x y t) = (1 - t) * l x + t * l y := by
  rw [AffineMap.apply_lineMap, AffineMap.lineMap_apply_module]
  simp

end

section
variable {K E : Type} [Field K] [LinearOrder K] [IsStrictOrderedRing K] [AddCommGroup E] [Module K E] [FiniteDimensional K E]
variable {T T' R : Finset E} (h : Full K T)

variable (K) in
/-- `x` is in the interior of the simplex -/
def Inside (T : Finset E) (x : E) : Prop := ∀ i ∈ T, 0 < crd K T i x

theorem exists_small {ι : Type} (s : Finset ι) (a b : ι → K) (ha : ∀ i ∈ s, 0 < a i) :
    ∃ δ : K, 0 < δ ∧ δ ≤ 1 ∧ ∀ ε, 0 < ε → ε < δ → ∀ i ∈ s, 0 < (1 - ε) * a i + ε * b i := by
  induction s using Finset.induction_on with
  | empty => exact ⟨1, one_pos, le_refl _, by simp⟩
  | insert j s hj ih =>
    obtain ⟨δ, d1, d2, d3⟩ := ih fun i hi => ha i (Finset.mem_insert_of_mem hi)
    have hj := ha j (Finset.mem_insert_self j s)
    have hpos : 0 < a j + |b j - a j| := by have := abs_nonneg (b j - a j); linarith
    refine ⟨min δ (a j / (a j + |b j - a j|)), lt_min d1 (div_pos hj hpos), (min_le_left _ _).trans d2, ?_⟩
    intro ε h1 h2 i hi
    rcases Finset.mem_insert.1 hi with rfl | hi
    · have h3 := h2.trans_le (min_le_right _ _)
      rw [lt_div_iff₀ hpos] at h3
      have h4 := neg_abs_le (b i - a i)
      have h5 : ε * -|b i - a i| ≤ ε * (b i - a i) := mul_le_mul_of_nonneg_left h4 h1.le
      have h6 : 0 < ε * a i := mul_pos h1 hj
      nlinarith
    · exact d3 ε h1 (h2.trans_le (min_le_left _ _)) i hi

include h

theorem mem_conv_iff (x : E) : x ∈ convexHull K (T : Set E) ↔ ∀ i ∈ T, 0 ≤ crd K T i x := by
  rw [Finset.mem_convexHull']
  constructor
  · rintro ⟨w, h1, h2, h3⟩ i hi
    rw [crd_unique h h2 h3 hi]
    exact h1 i hi
  · intro hh
    exact ⟨fun i => crd K T i x, hh, crd_sum h x, crd_comb h x⟩

theorem Inside.mem_conv {x : E} (hx : Inside K T x) : x ∈ convexHull K (T : Set E) := (mem_conv_iff h x).2 fun i hi => (hx i hi).le

/-- an affine function that is not negative at the vertices, and somewhere positive, is positive inside -/
theorem Inside.pos {x : E} (hx : Inside K T x) {l : E →ᵃ[K] K} (hl : ∀ i ∈ T, 0 ≤ l i) (hp : ∃ i ∈ T, 0 < l i) : 0 < l x := by
  rw [affine_eq h l x]
  obtain ⟨i, hi, hp⟩ := hp
  exact Finset.sum_pos' (fun j hj => mul_nonneg (hx j hj).le (hl j hj)) ⟨i, hi, mul_pos (hx i hi) hp⟩

omit h [FiniteDimensional K E] in
theorem nonneg_conv {s : Set E} {x : E} (hx : x ∈ convexHull K s) {l : E →ᵃ[K] K} (hl : ∀ i ∈ s, 0 ≤ l i) : 0 ≤ l x := by
  have h1 : Convex K {y | 0 ≤ l y} := by
    intro y hy z hz a b ha hb hab
    have h2 : a • y + b • z = AffineMap.lineMap y z b := by
      rw [AffineMap.lineMap_apply_module, ← hab]; simp
    show 0 ≤ l _
    rw [h2, affine_line, show 1 - b = a by linarith]
    exact add_nonneg (mul_nonneg ha hy) (mul_nonneg hb hz)
  exact convexHull_min hl h1 hx

/-- the centre is inside -/
theorem Full.exists_inside : ∃ x, Inside K T x := by
  have hc : (0 : K) < T.card := by rw [h.card]; exact_mod_cast Nat.succ_pos _
  have hw : ∑ i ∈ T, (T.card : K)⁻¹ = 1 := by
    rw [Finset.sum_const, nsmul_eq_mul, mul_inv_cancel₀ hc.ne']
  refine ⟨∑ i ∈ T, (T.card : K)⁻¹ • i, fun i hi => ?_⟩
  rw [crd_unique h (w := fun _ => (T.card : K)⁻¹) hw rfl hi]
  exact inv_pos.2 hc

end

section
variable {K E : Type} [Field K] [LinearOrder K] [IsStrictOrderedRing K] [AddCommGroup E] [Module K E] [FiniteDimensional K E]
variable {T T' R : Finset E}

/-- two simplices on a common face -/
theorem crd_neighbour (h : Full K T) (h' : Full K T') {i i' : E} (hi : i ∈ T) (hi' : i' ∈ T') (he : T.erase i = T'.erase i') (x : E) :
    crd K T i x = crd K T' i' x * crd K T i i' :=
  affine_eq_single h' _ hi' (fun j hj => crd_ne h hi (Finset.mem_of_mem_erase (he ▸ hj)) (by rw [← he] at hj; exact (Finset.ne_of_mem_erase hj).symm)) x

theorem crd_neighbour_ne (h : Full K T) (h' : Full K T') {i i' : E} (hi : i ∈ T) (hi' : i' ∈ T') (he : T.erase i = T'.erase i') :
    crd K T i i' ≠ 0 := by
  intro e
  have := crd_neighbour h h' hi hi' he i
  rw [e, mul_zero, crd_self h hi] at this
  exact one_ne_zero this

/-- on the common face the coordinates agree -/
theorem crd_face (h : Full K T) (h' : Full K T') {i i' : E} (hi : i ∈ T) (hi' : i' ∈ T') (he : T.erase i = T'.erase i') {x : E}
    (hx : crd K T i x = 0) {j : E} (hj : j ∈ T.erase i) : crd K T' j x = crd K T j x := by
  have hi2 : i' ∉ T.erase i := by rw [he]; simp
  let w : E → K := fun k => if k = i' then 0 else crd K T k x
  have e1 : ∑ k ∈ T.erase i, crd K T k x = 1 := by
    have := crd_sum h x
    rwa [← Finset.add_sum_erase T _ hi, hx, zero_add] at this
  have e2 : ∑ k ∈ T.erase i, crd K T k x • k = x := by
    have := crd_comb h x
    rwa [← Finset.add_sum_erase T _ hi, hx, zero_smul, zero_add] at this
  have hwk : ∀ k ∈ T.erase i, w k = crd K T k x := by
    intro k hk
    exact if_neg fun (e : k = i') => hi2 (e ▸ hk)
  have := crd_unique h' (w := w) (x := x) (i := j) (by
      rw [← Finset.add_sum_erase T' _ hi', ← he, Finset.sum_congr rfl hwk, e1]; simp [w]) (by
      rw [← Finset.add_sum_erase T' _ hi', ← he, Finset.sum_congr rfl fun k hk => by rw [hwk k hk], e2]; simp [w])
      (Finset.mem_of_mem_erase (he ▸ hj))
  rw [this, hwk j hj]

/-- two simplices on the same side of a common face overlap -/
theorem overlap_of_same_side (h : Full K T) (h' : Full K T') {i i' : E} (hi : i ∈ T) (hi' : i' ∈ T') (he : T.erase i = T'.erase i')
    (hs : 0 < crd K T i i') : ∃ x, Inside K T x ∧ Inside K T' x := by
  obtain ⟨c, hc⟩ := h.exists_inside
  -- a point inside the face
  let z := AffineMap.lineMap (k := K) i c (1 / (1 - crd K T i c))
  by_cases hone : T.erase i = ∅
  · -- dimension 0
    have e1 : T = {i} := by
      have := Finset.insert_erase hi
      rw [hone] at this
      exact this.symm
    have e2 : T' = {i'} := by
      have := Finset.insert_erase hi'
      rw [← he, hone] at this
      exact this.symm
    obtain ⟨c', hc'⟩ := h'.exists_inside
    refine ⟨c, hc, ?_⟩
    intro j hj
    rw [e2, Finset.mem_singleton] at hj
    have := crd_sum h' c
    rw [e2, Finset.sum_singleton] at this
    rw [hj, e2, this]; exact one_pos
  · obtain ⟨j0, hj0⟩ := Finset.nonempty_iff_ne_empty.2 hone
    have hlt : crd K T i c < 1 := by
      rw [← crd_sum h c, ← Finset.add_sum_erase T _ hi]
      have : 0 < ∑ k ∈ T.erase i, crd K T k c := Finset.sum_pos (fun k hk => hc k (Finset.mem_of_mem_erase hk)) ⟨j0, hj0⟩
      linarith
    have h1 : (0 : K) < 1 - crd K T i c := by linarith
    have hzi : crd K T i z = 0 := by
      simp only [z]
      rw [affine_line, crd_self h hi]
      field_simp
      ring
    have hzj : ∀ j ∈ T.erase i, 0 < crd K T j z := by
      intro j hj
      simp only [z]
      rw [affine_line, crd_ne h (Finset.mem_of_mem_erase hj) hi (Finset.ne_of_mem_erase hj), mul_zero, zero_add]
      exact mul_pos (one_div_pos.2 h1) (hc j (Finset.mem_of_mem_erase hj))
    obtain ⟨δ, d1, d2, d3⟩ := exists_small (T.erase i) (fun j => crd K T' j z) (fun j => crd K T' j i) (fun j hj => by
      rw [crd_face h h' hi hi' he hzi hj]; exact hzj j hj)
    obtain ⟨ε, ε1, ε2⟩ := exists_between d1
    have hi'i : 0 < crd K T' i' i := by
      have := crd_neighbour h h' hi hi' he i
      rw [crd_self h hi] at this
      by_contra hn
      have := mul_nonpos_of_nonpos_of_nonneg (not_lt.1 hn) hs.le
      linarith
    have hzi' : crd K T' i' z = 0 := by
      have := crd_neighbour h h' hi hi' he z
      rw [hzi] at this
      exact (mul_eq_zero.1 this.symm).resolve_right hs.ne'
    refine ⟨AffineMap.lineMap z i ε, ?_, ?_⟩
    · intro j hj
      rw [affine_line]
      by_cases hji : j = i
      · subst hji
        rw [hzi, crd_self h hj]; simpa using ε1
      · rw [crd_ne h hj hi hji, mul_zero, add_zero]
        exact mul_pos (by linarith) (hzj j (Finset.mem_erase.2 ⟨hji, hj⟩))
    · intro j hj
      rw [affine_line]
      by_cases hji : j = i'
      · subst hji
        rw [hzi', mul_zero, zero_add]
        exact mul_pos ε1 hi'i
      · exact d3 ε ε1 ε2 j (by rw [he]; exact Finset.mem_erase.2 ⟨hji, hj⟩)

end

end Verif.Geometry
