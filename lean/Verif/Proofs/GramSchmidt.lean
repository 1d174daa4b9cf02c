import Verif.Model.Smith
import Verif.Spec.Smith
import Verif.Proofs.Hermite
import Mathlib.LinearAlgebra.Matrix.Block

namespace Verif.Rings

section Herm
variable {K : Type} [Field K] {c : Nat} {σ : K →+* K}

theorem herm_symm (hσ : ∀ x, σ (σ x) = x) (x y : Fin c → K) : herm σ x y = σ (herm σ y x) := by
  unfold herm
  rw [map_sum]
  refine Finset.sum_congr rfl fun k _ => ?_
  rw [map_mul, hσ, mul_comm]

theorem herm_add_mul (x y z : Fin c → K) (a : K) : herm σ (fun l => 1 * x l + a * y l) z = herm σ x z + a * herm σ y z := by
  unfold herm
  rw [Finset.mul_sum, ← Finset.sum_add_distrib]
  refine Finset.sum_congr rfl fun k _ => ?_
  ring

theorem herm_vecMul {r : Nat} (z : Fin r → K) (Q : Matrix (Fin r) (Fin c) K) (w : Fin c → K) :
    herm σ (Matrix.vecMul z Q) w = ∑ l, z l * herm σ (Q l) w := by
  unfold herm Matrix.vecMul dotProduct
  simp only [Finset.mul_sum, Finset.sum_mul]
  rw [Finset.sum_comm]
  refine Finset.sum_congr rfl fun k _ => Finset.sum_congr rfl fun l _ => ?_
  ring

end Herm

section Gram
variable {α K : Type} [Field K] {S : DomainOps α} {v : α → K} (h : S.Models v) {conj : α → α} {σ : K →+* K}
  (hc : ∀ x, v (conj x) = σ (v x))
include h hc

theorem DomainOps.Models.rowInner {r c : Nat} {m : Mat α} {Q : Matrix (Fin r) (Fin c) K} (hm : m.Denotes v Q) (i j : Fin r) :
    ∃ x, S.rowInner conj m i j = some x ∧ v x = herm σ (Q i) (Q j) := by
  have hrow : ∀ i : Fin r, ∃ o, m.getRow i = some o ∧ o.Denotes v (Q.submatrix (fun _ : Fin 1 => i) id) := by
    intro i
    unfold Mat.getRow
    rw [hm.cols]
    exact hm.submatrix [(i : Nat)] (List.range c) (r' := 1) (c' := c) rfl (by simp) (fun _ => i) id (by intro i; simp) (by intro i; simp)
  obtain ⟨a, ea, ha⟩ := hrow i
  obtain ⟨b, eb, hb⟩ := hrow j
  have hb' : (matConjugate conj b).Denotes v ((Q.submatrix (fun _ : Fin 1 => j) id).map σ) := hb.applyMap _ _ hc
  obtain ⟨x, ex, hx⟩ := h.toRing.toSemi.matDot ha hb'
  refine ⟨x, ?_, ?_⟩
  · unfold DomainOps.rowInner DomainOps.innerProduct
    simp only [ea, eb, Option.bind_eq_bind, Option.bind_some]
    exact ex
  · rw [hx]
    simp [herm]

/-- what holds before the inner step `(i, j)` -/
structure GInv (v : α → K) (σ : K →+* K) {r c : Nat} (A : Matrix (Fin r) (Fin c) K) (i j : Nat) (st : Mat α × Mat α) (Q : Matrix (Fin r) (Fin c) K)
    (L : Matrix (Fin r) (Fin r) K) : Prop where
  m : st.1.Denotes v Q
  l : st.2.Denotes v L
  mul : Q = L * A
  tri : LowerUnitriangular L
  orth : ∀ k l : Fin r, l < k → ((k : Nat) < i ∨ ((k : Nat) = i ∧ (l : Nat) < j)) → herm σ (Q k) (Q l) = 0

theorem DomainOps.Models.gramEntry {r c : Nat} {A : Matrix (Fin r) (Fin c) K} (i j : Fin r) (hij : j < i) {st : Mat α × Mat α}
    {Q : Matrix (Fin r) (Fin c) K} {L : Matrix (Fin r) (Fin r) K} (hI : GInv v σ A i j st Q L) :
    (herm σ (Q j) (Q j) = 0 → S.gramEntry conj i st j = none) ∧
    (herm σ (Q j) (Q j) ≠ 0 → ∃ st' Q' L', S.gramEntry conj i st j = some st' ∧ GInv v σ A i (j + 1) st' Q' L' ∧ ∀ k, k ≠ i → Q' k = Q k) := by
  obtain ⟨x, ex, hx⟩ := h.rowInner hc hI.m i j
  obtain ⟨y, ey, hy⟩ := h.rowInner hc hI.m j j
  unfold DomainOps.gramEntry
  simp only [ex, ey, Option.bind_eq_bind, Option.bind_some]
  constructor
  · intro h0
    rw [h.div_zero x y (by rw [hy, h0])]
    rfl
  · intro h0
    obtain ⟨q, eq, hq⟩ := h.div_unwrap x y (by rw [hy]; exact h0) ((IsUnit.mk0 _ (by rw [hy]; exact h0)).dvd)
    rw [eq, Option.bind_some]
    have hval : (ElemOp.addRowMul (i : Nat) (j : Nat) (S.neg q) : ElemOp α).Valid v r := ⟨i.2, j.2, fun e => by
      have := Fin.ext e
      subst this; exact lt_irrefl _ hij⟩
    obtain ⟨m', e1, h1⟩ := h.rowOp hval hI.m
    obtain ⟨l', e2, h2⟩ := h.rowOp hval hI.l
    have hact : ∀ {n : Nat} (M : Matrix (Fin r) (Fin n) K), (ElemOp.addRowMul (i : Nat) (j : Nat) (S.neg q) : ElemOp α).act v M =
        rowTwo M i j 1 (-v q) 0 1 := by
      intro n M
      simp only [ElemOp.act, i.2, j.2, and_self, dif_pos, h.toRing.neg]
    have hne : i ≠ j := ne_of_gt hij
    have hrow : ∀ {n : Nat} (M : Matrix (Fin r) (Fin n) K), rowTwo M i j 1 (-v q) 0 1 i = fun l => 1 * M i l + (-v q) * M j l := by
      intro n M
      funext l
      rw [rowTwo_apply, if_neg hne, if_pos rfl]
    have hother : ∀ {n : Nat} (M : Matrix (Fin r) (Fin n) K) k, k ≠ i → rowTwo M i j 1 (-v q) 0 1 k = M k := by
      intro n M k hk
      funext l
      rw [rowTwo_apply]
      by_cases hkj : k = j
      · rw [if_pos hkj, hkj]; ring
      · rw [if_neg hkj, if_neg hk]
    rw [hact] at h1 h2
    refine ⟨(m', l'), _, _, ?_, ⟨h1, h2, ?_, ⟨?_, ?_⟩, ?_⟩, hother Q⟩
    · unfold DomainOps.applyBoth
      simp only [e1, e2, Option.bind_eq_bind, Option.bind_some]
    · rw [hI.mul, ← hact, ← hact, ElemOp.act_mul]
    · intro k l hkl
      by_cases hk : k = i
      · subst hk
        rw [hrow]
        dsimp only
        rw [hI.tri.1 _ _ hkl, hI.tri.1 j l (hij.trans hkl)]; ring
      · rw [hother _ _ hk]; exact hI.tri.1 _ _ hkl
    · intro k
      by_cases hk : k = i
      · subst hk
        rw [hrow]
        dsimp only
        rw [hI.tri.2, hI.tri.1 j k hij]; ring
      · rw [hother _ _ hk]; exact hI.tri.2 _
    · intro k l hlk hcase
      by_cases hk : k = i
      · subst hk
        rw [hother Q l (ne_of_lt hlk), hrow, herm_add_mul]
        by_cases hlj : l = j
        · subst hlj
          rw [← hx, ← hy, hq]; ring
        · have hlj' : (l : Nat) < j := by
            rcases hcase with hcase | ⟨-, hcase⟩
            · omega
            · have : (l : Nat) ≠ j := fun e => hlj (Fin.ext e)
              omega
          rw [hI.orth k l hlk (.inr ⟨rfl, hlj'⟩), hI.orth j l hlj' (.inl hij)]; ring
      · rw [hother Q k hk]
        have hki : (k : Nat) < i := by
          rcases hcase with hcase | ⟨hcase, -⟩
          · exact hcase
          · exact absurd (Fin.ext hcase) hk
        have hl : l ≠ i := by
          intro e; subst e
          have : (l : Nat) < k := hlk
          omega
        rw [hother Q l hl]
        exact hI.orth k l hlk (.inl hki)

theorem DomainOps.Models.gramRow {r c : Nat} {A : Matrix (Fin r) (Fin c) K} (i : Fin r) {st : Mat α × Mat α}
    {Q : Matrix (Fin r) (Fin c) K} {L : Matrix (Fin r) (Fin r) K} (hI : GInv v σ A i 0 st Q L) (j : Nat) (hj : j ≤ i) :
    ((∃ l : Fin r, (l : Nat) < j ∧ herm σ (Q l) (Q l) = 0) → (List.range j).foldlM (S.gramEntry conj i) st = none) ∧
    ((∀ l : Fin r, (l : Nat) < j → herm σ (Q l) (Q l) ≠ 0) → ∃ st' Q' L', (List.range j).foldlM (S.gramEntry conj i) st = some st' ∧
      GInv v σ A i j st' Q' L' ∧ ∀ k, k ≠ i → Q' k = Q k) := by
  induction j with
  | zero => exact ⟨fun ⟨l, hl, _⟩ => by omega, fun _ => ⟨st, Q, L, rfl, hI, fun _ _ => rfl⟩⟩
  | succ j ih =>
    obtain ⟨ih1, ih2⟩ := ih (by omega)
    have hjr : j < r := by omega
    by_cases hall : ∀ l : Fin r, (l : Nat) < j → herm σ (Q l) (Q l) ≠ 0
    · obtain ⟨st1, Q1, L1, e1, hI1, hs1⟩ := ih2 hall
      have hji : (⟨j, hjr⟩ : Fin r) < i := by
        show j < (i : Nat)
        omega
      obtain ⟨g1, g2⟩ := h.gramEntry hc i ⟨j, hjr⟩ hji hI1
      have hQj : Q1 ⟨j, hjr⟩ = Q ⟨j, hjr⟩ := hs1 _ (ne_of_lt hji)
      rw [hQj] at g1 g2
      rw [List.range_succ, List.foldlM_append, e1]
      simp only [List.foldlM_cons, List.foldlM_nil, Option.bind_eq_bind, Option.bind_some]
      constructor
      · rintro ⟨l, hl, h0⟩
        have : l = ⟨j, hjr⟩ := by
          by_contra hne
          have : (l : Nat) ≠ j := fun e => hne (Fin.ext e)
          exact hall l (by omega) h0
        rw [this] at h0
        have := g1 h0
        simp only at this
        rw [this]; rfl
      · intro hall'
        obtain ⟨st2, Q2, L2, e2, hI2, hs2⟩ := g2 (hall' ⟨j, hjr⟩ (by simp))
        refine ⟨st2, Q2, L2, ?_, hI2, fun k hk => (hs2 k hk).trans (hs1 k hk)⟩
        simp only at e2
        rw [e2]; rfl
    · push Not at hall
      have := ih1 hall
      constructor
      · intro _
        rw [List.range_succ, List.foldlM_append, this]; rfl
      · intro hall'
        obtain ⟨l, hl, h0⟩ := hall
        exact absurd h0 (hall' l (by omega))

theorem DomainOps.Models.gramLoop {r c : Nat} {A : Matrix (Fin r) (Fin c) K} {st : Mat α × Mat α}
    {Q : Matrix (Fin r) (Fin c) K} {L : Matrix (Fin r) (Fin r) K} (hI : GInv v σ A 0 0 st Q L) (i : Nat) (hi : i ≤ r) :
    (∃ st' Q' L', (List.range i).foldlM (S.gramRow conj) st = some st' ∧ GInv v σ A i 0 st' Q' L' ∧
      ∀ l : Fin r, (l : Nat) + 1 < i → herm σ (Q' l) (Q' l) ≠ 0) ∨
    ((List.range i).foldlM (S.gramRow conj) st = none ∧ ∃ st' Q' L' i', GInv v σ A i' 0 st' Q' L' ∧
      ∃ l : Fin r, (l : Nat) + 1 < i ∧ herm σ (Q' l) (Q' l) = 0) := by
  induction i with
  | zero => exact .inl ⟨st, Q, L, rfl, hI, fun _ hl => by omega⟩
  | succ i ih =>
    rcases ih (by omega) with ⟨st1, Q1, L1, e1, hI1, hN⟩ | ⟨e1, st1, Q1, L1, i1, hI1, l, hl, h0⟩
    · obtain ⟨g1, g2⟩ := h.gramRow hc ⟨i, by omega⟩ hI1 i le_rfl
      rw [List.range_succ, List.foldlM_append, e1]
      simp only [List.foldlM_cons, List.foldlM_nil, Option.bind_eq_bind, Option.bind_some]
      unfold DomainOps.gramRow
      by_cases hall : ∀ l : Fin r, (l : Nat) < i → herm σ (Q1 l) (Q1 l) ≠ 0
      · obtain ⟨st2, Q2, L2, e2, hI2, hs2⟩ := g2 hall
        refine .inl ⟨st2, Q2, L2, ?_, ⟨hI2.m, hI2.l, hI2.mul, hI2.tri, ?_⟩, ?_⟩
        · simp only at e2
          rw [e2]; rfl
        · intro k l hlk hcase
          refine hI2.orth k l hlk ?_
          rcases hcase with hcase | ⟨-, hcase⟩
          · by_cases hk : (k : Nat) = i
            · exact .inr ⟨hk, by have : (l : Nat) < k := hlk; omega⟩
            · exact .inl (by simp only; omega)
          · omega
        · intro l hl
          rw [hs2 l (fun e => by rw [e] at hl; simp at hl)]
          exact hall l (by omega)
      · push Not at hall
        obtain ⟨l, hl, h0⟩ := hall
        refine .inr ⟨?_, st1, Q1, L1, i, hI1, l, by omega, h0⟩
        have := g1 ⟨l, hl, h0⟩
        simp only at this
        rw [this]; rfl
    · exact .inr ⟨by rw [List.range_succ, List.foldlM_append, e1]; rfl, st1, Q1, L1, i1, hI1, l, by omega, h0⟩

omit h hc in
theorem LowerUnitriangular.det_one {r : Nat} {L : Matrix (Fin r) (Fin r) K} (hL : LowerUnitriangular L) : L.det = 1 := by
  rw [Matrix.det_of_isLowerTriangular L (fun i j hij => hL.1 i j hij)]
  exact Finset.prod_eq_one fun i _ => hL.2 i

theorem DomainOps.Models.gramCheck {r c : Nat} {m : Mat α} {Q : Matrix (Fin r) (Fin c) K} (hm : m.Denotes v Q) (hQ : RowOrthogonal σ Q) :
    S.gramCheck conj m = some true := by
  unfold DomainOps.gramCheck
  rw [hm.rows]
  obtain ⟨b, e, hb⟩ := allM_some (List.range r) (p := fun i => (rangeFrom (i + 1) r).allM fun j => (S.rowInner conj m i j).map S.isZero)
    (P := fun _ => True) (by
      intro i hi
      rw [List.mem_range] at hi
      obtain ⟨b, e, hb⟩ := allM_some (rangeFrom (i + 1) r) (p := fun j => (S.rowInner conj m i j).map S.isZero) (P := fun _ => True) (by
        intro j hj
        rw [mem_rangeFrom] at hj
        obtain ⟨x, ex, hx⟩ := h.rowInner hc hm ⟨i, hi⟩ ⟨j, hj.2⟩
        refine ⟨true, ?_, by simp⟩
        have ex' : S.rowInner conj m i j = some x := ex
        rw [ex', Option.map_some]
        congr 1
        rw [h.toRing.toSemi.isZero, hx]
        exact hQ _ _ (fun e => by have := congrArg Fin.val e; simp only at this; omega))
      exact ⟨b, e, by simp [hb]⟩)
  rw [e, hb.2 (by simp)]

/-- Gram–Schmidt: either it returns the decomposition, or two rows could not be separated -/
theorem DomainOps.Models.gramSchmidtRow (hσ : ∀ x, σ (σ x) = x) {r c : Nat} {m : Mat α} {A : Matrix (Fin r) (Fin c) K} (hm : m.Denotes v A) :
    (∃ lt q L Q, S.gramSchmidtRow conj m = some (lt, q) ∧ lt.Denotes v L ∧ q.Denotes v Q ∧ Q = L * A ∧ LowerUnitriangular L ∧
      RowOrthogonal σ Q ∧ ∀ l : Fin r, (l : Nat) + 1 < r → herm σ (Q l) (Q l) ≠ 0) ∨
    (S.gramSchmidtRow conj m = none ∧ ∃ L : Matrix (Fin r) (Fin r) K, LowerUnitriangular L ∧
      ∃ l : Fin r, (l : Nat) + 1 < r ∧ herm σ ((L * A) l) ((L * A) l) = 0) := by
  obtain ⟨u, eu, hu⟩ := h.toRing.toSemi.matIdent r
  have hI : GInv v σ A 0 0 (m, u) A 1 := ⟨hm, hu, by rw [Matrix.one_mul],
    ⟨fun k l hkl => Matrix.one_apply_ne (ne_of_lt hkl), fun k => Matrix.one_apply_eq k⟩, fun k l _ hcase => by omega⟩
  unfold DomainOps.gramSchmidtRow
  rw [hm.rows, show S.matIdent r = some u from eu]
  simp only [Option.bind_eq_bind, Option.bind_some]
  rcases h.gramLoop hc hI r le_rfl with ⟨st, Q, L, e, hI', hN⟩ | ⟨e, st, Q, L, i, hI', l, hl, h0⟩
  · left
    have hQ : RowOrthogonal σ Q := by
      intro k l hkl
      rcases lt_or_gt_of_ne hkl with hlt | hlt
      · rw [herm_symm hσ, hI'.orth l k hlt (.inl l.2), map_zero]
      · exact hI'.orth k l hlt (.inl k.2)
    obtain ⟨p, ep, hp⟩ := h.toRing.toSemi.matMulUnwrap hI'.l hm
    obtain ⟨b, eb, hb⟩ := h.toRing.toSemi.matEqual hI'.m hp
    refine ⟨st.2, st.1, L, Q, ?_, hI'.l, hI'.m, hI'.mul, hI'.tri, hQ, fun l hl => hN l hl⟩
    rw [e]
    simp only [Option.bind_some]
    rw [h.gramCheck hc hI'.m hQ]
    have ep' : S.matMulUnwrap st.2 m = some p := ep
    have eb' : S.matEqual st.1 p = some true := by rw [← hb.2 hI'.mul]; exact eb
    simp only [ep', eb', Option.bind_some, assertThat, if_true]
  · right
    refine ⟨by rw [e]; rfl, L, hI'.tri, l, hl, ?_⟩
    rw [← hI'.mul]; exact h0

end Gram

section Dep
variable {K : Type} [Field K] {r c : Nat} {σ : K →+* K} {A : Matrix (Fin r) (Fin c) K} {L : Matrix (Fin r) (Fin r) K}

theorem initRowsDependent_of_zero (haniso : ∀ x : Fin c → K, herm σ x x = 0 → x = 0) (hL : LowerUnitriangular L) (l : Fin r)
    (hl : (l : Nat) + 1 < r) (h0 : herm σ ((L * A) l) ((L * A) l) = 0) : InitRowsDependent A := by
  refine ⟨L l, ?_, ?_, ?_⟩
  · intro e
    have := congrFun e l
    rw [hL.2 l] at this
    exact one_ne_zero this
  · intro k hk
    exact hL.1 l k (by show (l : Nat) < k; omega)
  · have := haniso _ h0
    rw [Matrix.mul_apply_eq_vecMul] at this
    exact this

theorem not_initRowsDependent (hL : LowerUnitriangular L) (hQ : RowOrthogonal σ (L * A))
    (hN : ∀ l : Fin r, (l : Nat) + 1 < r → herm σ ((L * A) l) ((L * A) l) ≠ 0) : ¬ InitRowsDependent A := by
  rintro ⟨y, hy, hlast, h0⟩
  have hdet : IsUnit L.det := by rw [hL.det_one]; exact isUnit_one
  set z := Matrix.vecMul y L⁻¹ with hz
  have hzL : Matrix.vecMul z L = y := by
    rw [hz, Matrix.vecMul_vecMul, Matrix.nonsing_inv_mul _ hdet, Matrix.vecMul_one]
  have hzQ : Matrix.vecMul z (L * A) = 0 := by
    rw [← Matrix.vecMul_vecMul, hzL, h0]
  have hz0 : z = 0 := by
    funext k
    by_cases hk : (k : Nat) + 1 = r
    · have h1 := hlast k hk
      rw [← hzL, Matrix.vecMul, dotProduct, Finset.sum_eq_single k, hL.2, mul_one] at h1
      · exact h1
      · intro l _ hlk
        rw [hL.1 l k, mul_zero]
        have : (l : Nat) ≠ k := fun e => hlk (Fin.ext e)
        show (l : Nat) < k
        omega
      · simp
    · have h1 : herm σ (Matrix.vecMul z (L * A)) ((L * A) k) = 0 := by rw [hzQ]; simp [herm]
      rw [herm_vecMul, Finset.sum_eq_single k] at h1
      · exact (mul_eq_zero.1 h1).resolve_right (hN k (by omega))
      · intro l _ hlk
        rw [hQ l k hlk, mul_zero]
      · simp
  apply hy
  rw [← hzL, hz0, Matrix.zero_vecMul]

theorem dependent_of_zero_last (haniso : ∀ x : Fin c → K, herm σ x x = 0 → x = 0) (hL : LowerUnitriangular L) (l : Fin r)
    (h0 : herm σ ((L * A) l) ((L * A) l) = 0) : ∃ y : Fin r → K, y ≠ 0 ∧ Matrix.vecMul y A = 0 := by
  refine ⟨L l, ?_, ?_⟩
  · intro e
    have := congrFun e l
    rw [hL.2 l] at this
    exact one_ne_zero this
  · have := haniso _ h0
    rw [Matrix.mul_apply_eq_vecMul] at this
    exact this

theorem independent_of_norms (hL : LowerUnitriangular L) (hQ : RowOrthogonal σ (L * A))
    (hN : ∀ l : Fin r, herm σ ((L * A) l) ((L * A) l) ≠ 0) (y : Fin r → K) (h0 : Matrix.vecMul y A = 0) : y = 0 := by
  have hdet : IsUnit L.det := by rw [hL.det_one]; exact isUnit_one
  set z := Matrix.vecMul y L⁻¹ with hz
  have hzL : Matrix.vecMul z L = y := by
    rw [hz, Matrix.vecMul_vecMul, Matrix.nonsing_inv_mul _ hdet, Matrix.vecMul_one]
  have hzQ : Matrix.vecMul z (L * A) = 0 := by
    rw [← Matrix.vecMul_vecMul, hzL, h0]
  have hz0 : z = 0 := by
    funext k
    have h1 : herm σ (Matrix.vecMul z (L * A)) ((L * A) k) = 0 := by rw [hzQ]; simp [herm]
    rw [herm_vecMul, Finset.sum_eq_single k] at h1
    · exact (mul_eq_zero.1 h1).resolve_right (hN k)
    · intro l _ hlk
      rw [hQ l k hlk, mul_zero]
    · simp
  rw [← hzL, hz0, Matrix.zero_vecMul]

end Dep

section Lq
variable {α K : Type} [Field K] {S : DomainOps α} {v : α → K} (h : S.Models v) {conj : α → α} {σ : K →+* K}
  (hc : ∀ x, v (conj x) = σ (v x)) {sqrt : α → Option α}
include h hc

/-- the state of the scaling loop before row `i` -/
structure LInv (v : α → K) (σ : K →+* K) {r c : Nat} (A Q0 : Matrix (Fin r) (Fin c) K) (i : Nat) (st : Mat α × Mat α) (Q : Matrix (Fin r) (Fin c) K)
    (L : Matrix (Fin r) (Fin r) K) : Prop where
  m : st.1.Denotes v Q
  l : st.2.Denotes v L
  mul : Q = L * A
  tri : ∀ k l, k < l → L k l = 0
  diag : ∀ k, L k k ≠ 0
  orth : RowOrthogonal σ Q
  norm : ∀ k : Fin r, (k : Nat) < i → herm σ (Q k) (Q k) = 1
  rest : ∀ k : Fin r, i ≤ (k : Nat) → Q k = Q0 k

theorem DomainOps.Models.lqRow {r c : Nat} {A Q0 : Matrix (Fin r) (Fin c) K}
    (hsqrt : ∀ a, (∃ x : Fin c → K, v a = herm σ x x) → ∃ s, sqrt a = some s ∧ v s ^ 2 = v a ∧ σ (v s) = v s)
    (i : Fin r) {st : Mat α × Mat α} {Q : Matrix (Fin r) (Fin c) K} {L : Matrix (Fin r) (Fin r) K} (hI : LInv v σ A Q0 i st Q L) :
    (herm σ (Q0 i) (Q0 i) = 0 → S.lqRow conj sqrt st i = none) ∧
    (herm σ (Q0 i) (Q0 i) ≠ 0 → ∃ st' Q' L', S.lqRow conj sqrt st i = some st' ∧ LInv v σ A Q0 (i + 1) st' Q' L') := by
  obtain ⟨x, ex, hx⟩ := h.rowInner hc hI.m i i
  obtain ⟨s, es, hs, hσs⟩ := hsqrt x ⟨_, hx⟩
  unfold DomainOps.lqRow
  simp only [ex, es, Option.bind_eq_bind, Option.bind_some]
  rw [hI.rest i le_rfl] at hx
  constructor
  · intro h0
    have hs0 : v s = 0 := by
      rw [hx, h0] at hs
      exact pow_eq_zero_iff (by norm_num) |>.1 hs
    have : S.inv s = some (.error .divideByZero) := h.div_zero _ _ hs0
    rw [this]; rfl
  · intro h0
    have hs0 : v s ≠ 0 := by
      intro e
      rw [hx, e] at hs
      exact h0 (by rw [← hs]; ring)
    obtain ⟨q, eq, hq⟩ := h.div_unwrap S.one s hs0 (IsUnit.mk0 _ hs0).dvd
    rw [h.toRing.toSemi.one] at hq
    have eq' : unwrapDiv (S.inv s) = some q := eq
    rw [eq', Option.bind_some]
    have hq0 : v q ≠ 0 := fun e => by rw [e, zero_mul] at hq; exact one_ne_zero hq
    have hval : (ElemOp.unitMul (i : Nat) q : ElemOp α).Valid v r := ⟨i.2, IsUnit.mk0 _ hq0⟩
    obtain ⟨m', e1, h1⟩ := h.rowOp hval hI.m
    obtain ⟨l', e2, h2⟩ := h.rowOp hval hI.l
    have hact : ∀ {n : Nat} (M : Matrix (Fin r) (Fin n) K), (ElemOp.unitMul (i : Nat) q : ElemOp α).act v M = rowScale M i (v q) := by
      intro n M
      simp only [ElemOp.act, i.2, dif_pos]
    have hrow : ∀ {n : Nat} (M : Matrix (Fin r) (Fin n) K), rowScale M i (v q) i = fun l => v q * M i l := by
      intro n M
      funext l
      rw [rowScale_apply, if_pos rfl]
    have hother : ∀ {n : Nat} (M : Matrix (Fin r) (Fin n) K) k, k ≠ i → rowScale M i (v q) k = M k := by
      intro n M k hk
      funext l
      rw [rowScale_apply, if_neg hk]
    have hherm1 : ∀ (a : K) (x y : Fin c → K), herm σ (fun l => a * x l) y = a * herm σ x y := by
      intro a x y
      unfold herm
      rw [Finset.mul_sum]
      exact Finset.sum_congr rfl fun k _ => by ring
    have hherm2 : ∀ (a : K) (x y : Fin c → K), herm σ x (fun l => a * y l) = σ a * herm σ x y := by
      intro a x y
      unfold herm
      rw [Finset.mul_sum]
      exact Finset.sum_congr rfl fun k _ => by rw [map_mul]; ring
    rw [hact] at h1 h2
    refine ⟨(m', l'), _, _, ?_, ⟨h1, h2, ?_, ?_, ?_, ?_, ?_, ?_⟩⟩
    · unfold DomainOps.applyBoth
      simp only [e1, e2, Option.bind_eq_bind, Option.bind_some]
    · rw [hI.mul, ← hact, ← hact, ElemOp.act_mul]
    · intro k l hkl
      by_cases hk : k = i
      · subst hk
        rw [hrow]
        dsimp only
        rw [hI.tri _ _ hkl, mul_zero]
      · rw [hother _ _ hk]; exact hI.tri _ _ hkl
    · intro k
      by_cases hk : k = i
      · subst hk
        rw [hrow]
        exact mul_ne_zero hq0 (hI.diag k)
      · rw [hother _ _ hk]; exact hI.diag _
    · intro k l hkl
      by_cases hk : k = i
      · subst hk
        rw [hother Q l (Ne.symm hkl), hrow, hherm1, hI.orth k l hkl, mul_zero]
      · rw [hother Q k hk]
        by_cases hl : l = i
        · subst hl
          rw [hrow, hherm2, hI.orth k l hkl, mul_zero]
        · rw [hother Q l hl]
          exact hI.orth k l hkl
    · intro k hk
      by_cases hki : k = i
      · subst hki
        rw [hrow, hherm1, hherm2, hI.rest k le_rfl, ← hx, ← hs]
        have h3 : σ (v q) * v s = 1 := by rw [← hσs, ← map_mul, ← hq, map_one]
        calc v q * (σ (v q) * v s ^ 2) = (v q * v s) * (σ (v q) * v s) := by ring
          _ = 1 := by rw [← hq, h3, one_mul]
      · rw [hother Q k hki]
        have : (k : Nat) ≠ i := fun e => hki (Fin.ext e)
        exact hI.norm k (by omega)
    · intro k hk
      have hki : k ≠ i := fun e => by rw [e] at hk; omega
      rw [hother Q k hki]
      exact hI.rest k (by omega)

theorem DomainOps.Models.lqLoop {r c : Nat} {A Q0 : Matrix (Fin r) (Fin c) K}
    (hsqrt : ∀ a, (∃ x : Fin c → K, v a = herm σ x x) → ∃ s, sqrt a = some s ∧ v s ^ 2 = v a ∧ σ (v s) = v s)
    {st : Mat α × Mat α} {Q : Matrix (Fin r) (Fin c) K} {L : Matrix (Fin r) (Fin r) K} (hI : LInv v σ A Q0 0 st Q L) (i : Nat) (hi : i ≤ r) :
    ((∃ l : Fin r, (l : Nat) < i ∧ herm σ (Q0 l) (Q0 l) = 0) → (List.range i).foldlM (S.lqRow conj sqrt) st = none) ∧
    ((∀ l : Fin r, (l : Nat) < i → herm σ (Q0 l) (Q0 l) ≠ 0) → ∃ st' Q' L', (List.range i).foldlM (S.lqRow conj sqrt) st = some st' ∧
      LInv v σ A Q0 i st' Q' L') := by
  induction i with
  | zero => exact ⟨fun ⟨l, hl, _⟩ => by omega, fun _ => ⟨st, Q, L, rfl, hI⟩⟩
  | succ i ih =>
    obtain ⟨ih1, ih2⟩ := ih (by omega)
    by_cases hall : ∀ l : Fin r, (l : Nat) < i → herm σ (Q0 l) (Q0 l) ≠ 0
    · obtain ⟨st1, Q1, L1, e1, hI1⟩ := ih2 hall
      obtain ⟨g1, g2⟩ := h.lqRow hc hsqrt ⟨i, by omega⟩ hI1
      rw [List.range_succ, List.foldlM_append, e1]
      simp only [List.foldlM_cons, List.foldlM_nil, Option.bind_eq_bind, Option.bind_some]
      constructor
      · rintro ⟨l, hl, h0⟩
        have : l = ⟨i, by omega⟩ := by
          by_contra hne
          have : (l : Nat) ≠ i := fun e => hne (Fin.ext e)
          exact hall l (by omega) h0
        rw [this] at h0
        have := g1 h0
        simp only at this
        rw [this]; rfl
      · intro hall'
        obtain ⟨st2, Q2, L2, e2, hI2⟩ := g2 (hall' ⟨i, by omega⟩ (by simp))
        refine ⟨st2, Q2, L2, ?_, hI2⟩
        simp only at e2
        rw [e2]; rfl
    · push Not at hall
      have := ih1 hall
      constructor
      · intro _
        rw [List.range_succ, List.foldlM_append, this]; rfl
      · intro hall'
        obtain ⟨l, hl, h0⟩ := hall
        exact absurd h0 (hall' l (by omega))

/-- `lq_decomposition_algorithm`: it returns exactly when the rows are linearly independent -/
theorem DomainOps.Models.lqDecomposition (hσ : ∀ x, σ (σ x) = x) {r c : Nat} {m : Mat α} {A : Matrix (Fin r) (Fin c) K} (hm : m.Denotes v A)
    (haniso : ∀ x : Fin c → K, herm σ x x = 0 → x = 0)
    (hsqrt : ∀ a, (∃ x : Fin c → K, v a = herm σ x x) → ∃ s, sqrt a = some s ∧ v s ^ 2 = v a ∧ σ (v s) = v s) :
    ((∀ y, Matrix.vecMul y A = 0 → y = 0) → ∃ lt q L Q, S.lqDecomposition conj sqrt m = some (lt, q) ∧ lt.Denotes v L ∧ q.Denotes v Q ∧
      Q = L * A ∧ (∀ k l, k < l → L k l = 0) ∧ (∀ k, L k k ≠ 0) ∧ Q * (Q.map σ).transpose = 1) ∧
    ((∃ y, y ≠ 0 ∧ Matrix.vecMul y A = 0) → S.lqDecomposition conj sqrt m = none) := by
  unfold DomainOps.lqDecomposition
  rcases h.gramSchmidtRow hc hσ hm with ⟨lt, q, L, Q, e, hl, hq, hmul, htri, horth, hN⟩ | ⟨e, L, htri, l, hl, h0⟩
  · rw [e]
    simp only [Option.bind_eq_bind, Option.bind_some]
    have hI : LInv v σ A Q 0 (q, lt) Q L := ⟨hq, hl, hmul, htri.1, fun k => by rw [htri.2 k]; exact one_ne_zero, horth,
      fun k hk => by omega, fun _ _ => rfl⟩
    obtain ⟨g1, g2⟩ := h.lqLoop hc hsqrt hI r le_rfl
    rw [hq.rows]
    constructor
    · intro hind
      have hall : ∀ l : Fin r, (l : Nat) < r → herm σ (Q l) (Q l) ≠ 0 := by
        intro l _ h0
        rw [hmul] at h0
        obtain ⟨y, hy, hy0⟩ := dependent_of_zero_last haniso htri l h0
        exact hy (hind y hy0)
      obtain ⟨st, Q', L', e', hI'⟩ := g2 hall
      have hone : Q' * (Q'.map σ).transpose = 1 := by
        ext i j
        rw [Matrix.mul_apply]
        show herm σ (Q' i) (Q' j) = _
        by_cases hij : i = j
        · subst hij
          rw [hI'.norm i i.2, Matrix.one_apply_eq]
        · rw [hI'.orth i j hij, Matrix.one_apply_ne hij]
      obtain ⟨u, eu, hu⟩ := h.toRing.toSemi.matIdent r
      have ht : (matConjugate conj st.1.transposed).Denotes v ((Q'.transpose).map σ) := (hI'.m.transposed).applyMap _ _ hc
      obtain ⟨p, ep, hp⟩ := h.toRing.toSemi.matMulUnwrap hI'.m ht
      obtain ⟨b, eb, hb⟩ := h.toRing.toSemi.matEqual hu hp
      refine ⟨st.2, st.1, L', Q', ?_, hI'.l, hI'.m, hI'.mul, hI'.tri, hI'.diag, hone⟩
      rw [e']
      simp only [Option.bind_some]
      have eu' : S.matIdent st.1.rows = some u := by rw [hI'.m.rows]; exact eu
      have ep' : S.matMulUnwrap st.1 (matConjugate conj st.1.transposed) = some p := ep
      have eb' : S.matEqual u p = some true := by rw [← hb.2 hone.symm]; exact eb
      simp only [eu', ep', eb', Option.bind_some, assertThat, if_true]
    · rintro ⟨y, hy, hy0⟩
      have hex : ∃ l : Fin r, (l : Nat) < r ∧ herm σ (Q l) (Q l) = 0 := by
        by_contra hcon
        push Not at hcon
        refine hy (independent_of_norms htri (by rw [← hmul]; exact horth) (fun l => ?_) y hy0)
        rw [← hmul]; exact hcon l l.2
      rw [g1 hex]; rfl
  · refine ⟨fun hind => ?_, fun _ => by rw [e]; rfl⟩
    obtain ⟨y, hy, hy0⟩ := dependent_of_zero_last haniso htri l h0
    exact absurd (hind y hy0) hy

end Lq
end Verif.Rings
