import Verif.Proofs.Hermite
import Mathlib.LinearAlgebra.Matrix.Rank
import Mathlib.LinearAlgebra.Matrix.Block

/-!
# Consequences of the Hermite form: rank, determinant, reduced form, inverse
-/

namespace Verif.Rings

section Echelon
variable {R : Type} [CommRing R] {r c : Nat} {H : Matrix (Fin r) (Fin c) R} {pivs : List Nat}

theorem IsRowEchelon.lt_of_lt (h : IsRowEchelon H pivs) {i k p q : Nat} (hik : i < k) (hi : pivs[i]? = some p) (hk : pivs[k]? = some q) :
    p < q := by
  obtain ⟨hi', rfl⟩ := List.getElem?_eq_some_iff.1 hi
  obtain ⟨hk', rfl⟩ := List.getElem?_eq_some_iff.1 hk
  exact List.pairwise_iff_getElem.1 h.increasing i k hi' hk' hik

/-- a pivot has only zeros below it -/
theorem IsRowEchelon.below_pivot (h : IsRowEchelon H pivs) {i : Nat} {k : Fin r} {j : Fin c} (hik : i < k) (hi : pivs[i]? = some (j : Nat)) :
    H k j = 0 := by
  by_cases hk : (k : Nat) < pivs.length
  · exact h.left k j pivs[(k : Nat)] (List.getElem?_eq_getElem hk) (h.lt_of_lt hik hi (List.getElem?_eq_getElem hk))
  · exact h.below k j (by omega)

theorem IsRowEchelon.le_piv (h : IsRowEchelon H pivs) {i p : Nat} (hi : pivs[i]? = some p) : i ≤ p := by
  induction i generalizing p with
  | zero => exact Nat.zero_le _
  | succ i ih =>
    have hlt : i < pivs.length := by
      have := (List.getElem?_eq_some_iff.1 hi).1
      omega
    have h1 := ih (List.getElem?_eq_getElem hlt)
    have h2 := h.lt_of_lt (Nat.lt_succ_self i) (List.getElem?_eq_getElem hlt) hi
    omega

/-- an echelon matrix is zero below the diagonal -/
theorem IsRowEchelon.lower (h : IsRowEchelon H pivs) (i : Fin r) (j : Fin c) (hij : (j : Nat) < i) : H i j = 0 := by
  by_cases hi : (i : Nat) < pivs.length
  · have := h.le_piv (List.getElem?_eq_getElem hi)
    exact h.left i j _ (List.getElem?_eq_getElem hi) (by omega)
  · exact h.below i j (by omega)

/-- the rows with a pivot are linearly independent -/
theorem IsRowEchelon.linearIndependent [IsDomain R] (h : IsRowEchelon H pivs) :
    LinearIndependent R (fun (k : Fin pivs.length) (j : Fin c) => H (Fin.castLE h.le k) j) := by
  rw [Fintype.linearIndependent_iff]
  intro g hg
  suffices hs : ∀ n (hn : n < pivs.length), g ⟨n, hn⟩ = 0 from fun i => hs i i.2
  intro n
  induction n using Nat.strong_induction_on with
  | h n ih =>
    intro hn
    have hc : pivs[n] < c := h.lt _ (List.getElem_mem hn)
    have he : pivs[n]? = some ((⟨pivs[n], hc⟩ : Fin c) : Nat) := List.getElem?_eq_getElem hn
    have h0 := congrFun hg ⟨pivs[n], hc⟩
    rw [Finset.sum_apply, Finset.sum_eq_single (⟨n, hn⟩ : Fin pivs.length)] at h0
    · simp only [Pi.smul_apply, smul_eq_mul, Pi.zero_apply] at h0
      rcases mul_eq_zero.1 h0 with h1 | h1
      · exact h1
      · exact absurd h1 (h.pivot (Fin.castLE h.le ⟨n, hn⟩) ⟨pivs[n], hc⟩ he)
    · intro k _ hk
      simp only [Pi.smul_apply, smul_eq_mul]
      rcases Nat.lt_trichotomy (k : Nat) n with h1 | h1 | h1
      · rw [show g k = 0 from ih k h1 k.2, zero_mul]
      · exact absurd (Fin.ext h1) hk
      · rw [h.below_pivot (i := n) (k := Fin.castLE h.le k) (j := ⟨pivs[n], hc⟩) h1 he, mul_zero]
    · intro hk; exact absurd (Finset.mem_univ _) hk

theorem IsRowEchelon.map {K : Type} [CommRing K] (h : IsRowEchelon H pivs) (f : R →+* K) (hf : Function.Injective f) :
    IsRowEchelon (H.map f) pivs := by
  refine ⟨h.increasing, h.le, h.lt, ?_, ?_, ?_⟩
  · intro i j e
    rw [Matrix.map_apply, Ne, map_eq_zero_iff f hf]
    exact h.pivot i j e
  · intro i j p e hj
    rw [Matrix.map_apply, h.left i j p e hj, map_zero]
  · intro i j hi
    rw [Matrix.map_apply, h.below i j hi, map_zero]

/-- the rank of an echelon matrix is the number of its pivots -/
theorem IsRowEchelon.rank {K : Type} [Field K] {H : Matrix (Fin r) (Fin c) K} (h : IsRowEchelon H pivs) : H.rank = pivs.length := by
  rw [Matrix.rank_eq_finrank_span_row]
  have e : Submodule.span K (Set.range H.row) =
      Submodule.span K (Set.range fun (k : Fin pivs.length) (j : Fin c) => H (Fin.castLE h.le k) j) := by
    apply le_antisymm
    · rw [Submodule.span_le]
      rintro _ ⟨i, rfl⟩
      by_cases hi : (i : Nat) < pivs.length
      · exact Submodule.subset_span ⟨⟨i, hi⟩, rfl⟩
      · have : H.row i = 0 := by
          funext j
          exact h.below i j (by omega)
        rw [this]
        exact Submodule.zero_mem _
    · rw [Submodule.span_le]
      rintro _ ⟨k, rfl⟩
      exact Submodule.subset_span ⟨Fin.castLE h.le k, rfl⟩
  rw [e, finrank_span_eq_card h.linearIndependent, Fintype.card_fin]

theorem IsRowEchelon.det {n : Nat} {H : Matrix (Fin n) (Fin n) R} (h : IsRowEchelon H pivs) : H.det = ∏ i, H i i := by
  apply Matrix.det_of_isUpperTriangular
  intro i j hij
  exact h.lower i j hij

end Echelon

section
variable {α R : Type} [CommRing R] {S : BezoutOps α} {v : α → R} (h : S.Models v)
include h

theorem BezoutOps.Models.matRank {r c : Nat} {m : Mat α} {A : Matrix (Fin r) (Fin c) R} (hm : m.Denotes v A) {K : Type} [Field K]
    (f : R →+* K) (hf : Function.Injective f) : S.matRank m = some (A.map f).rank := by
  obtain ⟨res, H, U, e, hH, hU, hmul, hdet, hunit, hE, -⟩ := h.rowHermite hm
  unfold BezoutOps.matRank
  rw [e]
  change some res.pivs.length = _
  rw [← (hE.map f hf).rank, hmul, Matrix.map_mul]
  rw [Matrix.rank_mul_eq_right_of_isUnit_det]
  have : (U.map f).det = f U.det := (RingHom.map_det f U).symm
  rw [this, hdet]
  exact hunit.map f

theorem BezoutOps.Models.detHermite {n : Nat} {m : Mat α} {A : Matrix (Fin n) (Fin n) R} (hm : m.Denotes v A) :
    ∃ d, S.detHermite m = some d ∧ v d = A.det := by
  haveI := h.toGcd.toFav.toDomain.domain
  have hD := h.toGcd.toFav.toDomain
  have hS := hD.toRing.toSemi
  obtain ⟨res, H, U, e, hH, hU, hmul, hdet, hunit, hE, -⟩ := h.rowHermite hm
  obtain ⟨f, hf, hvf⟩ := (Mat.denotes_iff S.zero).1 hH
  have hfold : (List.range n).foldlM (fun d i => (res.h.get i i).map fun x => S.mul d x) S.one =
      some ((List.range n).foldl (fun d i => S.mul d (f i i)) S.one) := by
    apply foldlM_some
    intro b i hi
    rw [hf.get i i (List.mem_range.1 hi) (List.mem_range.1 hi)]
    rfl
  have hprod : v ((List.range n).foldl (fun d i => S.mul d (f i i)) S.one) = H.det := by
    have e1 : (List.range n).foldl (fun d i => S.mul d (f i i)) S.one = ((List.range n).map fun i => f i i).foldl S.mul S.one := by
      rw [List.foldl_map]
    rw [e1, hS.foldl_mul, hS.one, one_mul, List.map_map, prod_range_fin, hE.det]
    exact Finset.prod_congr rfl fun i _ => hvf i i
  obtain ⟨q, eq, hq⟩ := hD.div_unwrap ((List.range n).foldl (fun d i => S.mul d (f i i)) S.one) res.det hunit.ne_zero
    hunit.dvd
  refine ⟨q, ?_, ?_⟩
  · unfold BezoutOps.detHermite
    rw [hm.rows, hm.cols, e]
    change (assertThat (n == n)).bind (fun _ => ((List.range n).foldlM (fun d i => (res.h.get i i).map fun x => S.mul d x) S.one).bind
      fun hDet => unwrapDiv (S.div hDet res.det)) = _
    rw [hfold, beq_self_eq_true]
    exact eq
  · rw [hprod, hmul, Matrix.det_mul, hdet] at hq
    exact (mul_left_cancel₀ hunit.ne_zero (by rw [hq, mul_comm])).symm

theorem BezoutOps.Models.matDet {n : Nat} {m : Mat α} {A : Matrix (Fin n) (Fin n) R} (hm : m.Denotes v A) :
    ∃ d, S.matDet m = some (.ok d) ∧ v d = A.det := by
  unfold BezoutOps.matDet
  rw [if_neg (by rw [hm.rows, hm.cols]; simp)]
  split
  · obtain ⟨x, e, hx⟩ := h.toGcd.toFav.toDomain.toRing.detNaive hm
    exact ⟨x, by rw [e]; rfl, hx⟩
  · obtain ⟨x, e, hx⟩ := h.detHermite hm
    exact ⟨x, by rw [e]; rfl, hx⟩

omit h in
theorem BezoutOps.matDet_notSquare {r c : Nat} {m : Mat α} {A : Matrix (Fin r) (Fin c) R} (hm : m.Denotes v A) (hrc : r ≠ c) :
    S.matDet m = some (.error .notSquare) := by
  unfold BezoutOps.matDet
  rw [if_pos (by rw [hm.rows, hm.cols]; exact hrc)]

end

section
variable {α R : Type} [CommRing R] {S : EucOps α} {v : α → R} (h : S.Models v)
include h

/-- the invariant of the reduction: the stored matrices denote `H` and `U` with `H = U A` and `det U = d` -/
structure RInv (v : α → R) {r c : Nat} (A : Matrix (Fin r) (Fin c) R) (d : R) (hu : Mat α × Mat α) (H : Matrix (Fin r) (Fin c) R)
    (U : Matrix (Fin r) (Fin r) R) : Prop where
  m : hu.1.Denotes v H
  u : hu.2.Denotes v U
  mul : H = U * A
  det : U.det = d

theorem EucOps.Models.norm_congr {a b : α} (e : v a = v b) : S.norm a = S.norm b := by
  cases ha : S.norm a with
  | none => exact ((h.norm b).2 (by rw [← e]; exact (h.norm a).1 ha)).symm
  | some n =>
    cases hb : S.norm b with
    | none =>
      rw [(h.norm a).2 (by rw [e]; exact (h.norm b).1 hb)] at ha
      exact absurd ha (by simp)
    | some k =>
      have h1 := h.norm_dvd a b n k (by rw [e]) ha hb
      have h2 := h.norm_dvd b a k n (by rw [e]) hb ha
      rw [Nat.le_antisymm h1 h2]

theorem EucOps.Models.reduceEntry {r c : Nat} {A : Matrix (Fin r) (Fin c) R} {d : R} {hu : Mat α × Mat α}
    {H : Matrix (Fin r) (Fin c) R} {U : Matrix (Fin r) (Fin r) R} (hI : RInv v A d hu H U) (pr k : Fin r) (pc : Fin c) (hk : k ≠ pr)
    (hp : H pr pc ≠ 0) :
    ∃ hu' q H' U', S.reduceEntry pr pc hu k = some hu' ∧ RInv v A d hu' H' U' ∧
      (∀ (i : Fin r) (j : Fin c), H' i j = if i = k then H k j - q * H pr j else H i j) ∧ S.Small v (H' k pc) (H pr pc) := by
  have hD := h.toFav.toDomain
  obtain ⟨a, ea, ha⟩ := hI.m.get k pc
  obtain ⟨b, eb, hb⟩ := hI.m.get pr pc
  obtain ⟨q, rr, eq, hq, hsm⟩ := h.quorem a b (by rw [hb]; exact hp)
  have hval : (ElemOp.addRowMul (k : Nat) pr (S.neg q)).Valid v r := ⟨k.2, pr.2, fun e => hk (Fin.ext e)⟩
  obtain ⟨m', e1, h1⟩ := hD.rowOp hval hI.m
  obtain ⟨u', e2, h2⟩ := hD.rowOp hval hI.u
  have hact : ∀ (i : Fin r) (j : Fin c), (ElemOp.addRowMul (k : Nat) pr (S.neg q)).act v H i j = if i = k then H k j - v q * H pr j else H i j := by
    intro i j
    unfold ElemOp.act
    dsimp only
    rw [dif_pos ⟨k.2, pr.2⟩, rowTwo_apply, hD.toRing.neg]
    by_cases hi : i = pr
    · rw [if_pos hi, if_neg (by rw [hi]; exact hk.symm), hi]; ring
    · rw [if_neg hi]
      by_cases hi' : i = k
      · rw [if_pos hi', if_pos hi']; ring
      · rw [if_neg hi', if_neg hi']
  refine ⟨(m', u'), v q, _, _, ?_, ⟨h1, h2, ?_, ?_⟩, hact, ?_⟩
  · unfold EucOps.reduceEntry
    rw [ea]
    change (hu.1.get pr pc).bind _ = _
    rw [eb]
    have : (S.quo a b).bind id = some q := by
      unfold EucOps.quo
      rw [eq]
      rfl
    change ((S.quo a b).bind id).bind _ = _
    rw [this]
    change S.applyBoth _ hu = _
    unfold DomainOps.applyBoth
    rw [e1]
    change (S.rowOp _ hu.2).bind _ = _
    rw [e2]
    rfl
  · rw [hI.mul, ElemOp.act_mul]
  · rw [hD.det_act hval, hI.det]
    change v S.one * d = d
    rw [hD.toRing.toSemi.one, one_mul]
  · have hr' : (ElemOp.addRowMul (k : Nat) pr (S.neg q)).act v H k pc = v rr := by
      rw [hact, if_pos rfl, ← ha, ← hb, hq]; ring
    rw [hr']
    by_cases h0 : v rr = 0
    · exact .inl h0
    · right
      intro x x' hx hx'
      obtain ⟨n, m, hn, hm, hlt⟩ := hsm h0
      exact ⟨n, m, by rw [← hn, h.norm_congr hx], by rw [← hm, h.norm_congr (hx'.trans hb.symm)], hlt⟩

theorem EucOps.Models.reducePivot {r c : Nat} {A : Matrix (Fin r) (Fin c) R} {d : R} (pr : Fin r) (pc : Fin c) {hu : Mat α × Mat α}
    {H : Matrix (Fin r) (Fin c) R} {U : Matrix (Fin r) (Fin r) R} (hI : RInv v A d hu H U) (hp : H pr pc ≠ 0) :
    ∃ hu' H' U', S.reducePivot hu (pr, pc) = some hu' ∧ RInv v A d hu' H' U' ∧
      (∀ (i : Fin r) (j : Fin c), (pr : Nat) ≤ i → H' i j = H i j) ∧
      (∀ (i : Fin r) (j : Fin c), H pr j = 0 → H' i j = H i j) ∧
      ∀ i : Fin r, (i : Nat) < pr → S.Small v (H' i pc) (H pr pc) := by
  suffices hs : ∀ k ≤ (pr : Nat), ∃ hu' H' U', (List.range k).foldlM (S.reduceEntry pr pc) hu = some hu' ∧ RInv v A d hu' H' U' ∧
      (∀ (i : Fin r) (j : Fin c), k ≤ i → H' i j = H i j) ∧
      (∀ (i : Fin r) (j : Fin c), H pr j = 0 → H' i j = H i j) ∧
      ∀ i : Fin r, (i : Nat) < k → S.Small v (H' i pc) (H pr pc) from hs pr (le_refl _)
  intro k hk
  induction k with
  | zero => exact ⟨hu, H, U, rfl, hI, fun _ _ _ => rfl, fun _ _ _ => rfl, fun i hi => absurd hi (by omega)⟩
  | succ k ih =>
    obtain ⟨hu1, H1, U1, e1, hI1, g1, g2, g3⟩ := ih (by omega)
    have hkr : k < r := by have := pr.2; omega
    have hpr1 : ∀ j, H1 pr j = H pr j := fun j => g1 pr j (by omega)
    obtain ⟨hu2, q, H2, U2, e2, hI2, k1, k2⟩ := h.reduceEntry hI1 pr ⟨k, hkr⟩ pc (by rw [Ne, Fin.ext_iff]; simp; omega)
      (by rw [hpr1]; exact hp)
    refine ⟨hu2, H2, U2, ?_, hI2, ?_, ?_, ?_⟩
    · rw [List.range_succ, List.foldlM_append, e1]
      change (S.reduceEntry pr pc hu1 k).bind _ = _
      rw [show S.reduceEntry pr pc hu1 k = some hu2 from e2]
      rfl
    · intro i j hi
      rw [k1, if_neg (by rw [Fin.ext_iff]; simp; omega)]
      exact g1 i j (by omega)
    · intro i j hj
      rw [k1]
      split
      · rename_i hi
        rw [hpr1, hj, mul_zero, sub_zero, hi]
        exact g2 _ j hj
      · exact g2 i j hj
    · intro i hi
      by_cases hik : (i : Nat) = k
      · have : i = ⟨k, hkr⟩ := Fin.ext hik
        rw [this]
        rw [hpr1] at k2
        exact k2
      · rw [k1, if_neg (by rw [Fin.ext_iff]; exact hik)]
        exact g3 i (by omega)

omit h in
theorem enumerateFrom_append {β : Type} (n : Nat) (l : List β) (x : β) : enumerateFrom n (l ++ [x]) = enumerateFrom n l ++ [(n + l.length, x)] := by
  induction l generalizing n with
  | nil => rfl
  | cons y l ih =>
    rw [List.cons_append]
    change (n, y) :: enumerateFrom (n + 1) (l ++ [x]) = (n, y) :: (enumerateFrom (n + 1) l ++ _)
    rw [ih, List.length_cons]
    congr 3
    congr 1
    omega

theorem EucOps.Models.reduceLoop {r c : Nat} {A : Matrix (Fin r) (Fin c) R} {d : R} {hu : Mat α × Mat α}
    {H : Matrix (Fin r) (Fin c) R} {U : Matrix (Fin r) (Fin r) R} (hI : RInv v A d hu H U) {pivs : List Nat} (hE : IsRowEchelon H pivs) :
    ∃ hu' H' U', (enumerateFrom 0 pivs).foldlM S.reducePivot hu = some hu' ∧ RInv v A d hu' H' U' ∧ IsRowEchelon H' pivs ∧
      (∀ (i : Fin r) (j : Fin c), pivs[(i : Nat)]? = some (j : Nat) → H' i j = H i j) ∧
      ∀ (i k : Fin r) (j : Fin c), pivs[(k : Nat)]? = some (j : Nat) → i < k → S.Small v (H' i j) (H' k j) := by
  suffices hs : ∀ l, l <+: pivs → ∃ hu' H' U', (enumerateFrom 0 l).foldlM S.reducePivot hu = some hu' ∧ RInv v A d hu' H' U' ∧
      (∀ (i : Fin r) (j : Fin c), l.length ≤ (i : Nat) → H' i j = H i j) ∧
      (∀ (i : Fin r) (j : Fin c) (p : Nat), pivs[(i : Nat)]? = some p → (j : Nat) ≤ p → H' i j = H i j) ∧
      ∀ (i k : Fin r) (j : Fin c), l[(k : Nat)]? = some (j : Nat) → i < k → S.Small v (H' i j) (H k j) by
    obtain ⟨hu', H', U', e, hI', g1, g2, g3⟩ := hs pivs (List.prefix_refl _)
    refine ⟨hu', H', U', e, hI', ⟨hE.increasing, hE.le, hE.lt, ?_, ?_, ?_⟩, fun i j e => g2 i j _ e (le_refl _), ?_⟩
    · intro i j e
      rw [g2 i j _ e (le_refl _)]
      exact hE.pivot i j e
    · intro i j p e hj
      rw [g2 i j p e (by omega)]
      exact hE.left i j p e hj
    · intro i j hi
      rw [g1 i j hi]
      exact hE.below i j hi
    · intro i k j e hik
      rw [g2 k j _ e (le_refl _)]
      exact g3 i k j e hik
  intro l
  induction l using List.reverseRecOn with
  | nil =>
    intro _
    exact ⟨hu, H, U, rfl, hI, fun _ _ _ => rfl, fun _ _ _ _ _ => rfl, fun i k j e => absurd e (by simp)⟩
  | append_singleton l p ih =>
    intro hpre
    obtain ⟨hu1, H1, U1, e1, hI1, g1, g2, g3⟩ := ih ((List.prefix_append l [p]).trans hpre)
    have hlp : pivs[l.length]? = some p := by
      obtain ⟨t, rfl⟩ := hpre
      simp
    have hlen : l.length < pivs.length := (List.getElem?_eq_some_iff.1 hlp).1
    have hlr : l.length < r := lt_of_lt_of_le hlen hE.le
    have hpc : p < c := hE.lt p (List.mem_of_getElem? hlp)
    have hrow : ∀ j, H1 ⟨l.length, hlr⟩ j = H ⟨l.length, hlr⟩ j := fun j => g1 ⟨l.length, hlr⟩ j (le_refl _)
    obtain ⟨hu2, H2, U2, e2, hI2, k1, k2, k3⟩ := h.reducePivot (⟨l.length, hlr⟩ : Fin r) (⟨p, hpc⟩ : Fin c) hI1
      (by rw [hrow]; exact hE.pivot _ _ hlp)
    refine ⟨hu2, H2, U2, ?_, hI2, ?_, ?_, ?_⟩
    · rw [enumerateFrom_append, List.foldlM_append, e1]
      change (S.reducePivot hu1 (0 + l.length, p)).bind _ = _
      rw [Nat.zero_add, show S.reducePivot hu1 (l.length, p) = some hu2 from e2]
      rfl
    · intro i j hi
      rw [List.length_append, List.length_singleton] at hi
      rw [k1 i j (by simp; omega)]
      exact g1 i j (by omega)
    · intro i j q e hj
      by_cases hi : l.length ≤ (i : Nat)
      · rw [k1 i j hi]
        exact g1 i j hi
      · rw [k2 i j]
        · exact g2 i j q e hj
        · rw [hrow]
          have := hE.lt_of_lt (by omega) e hlp
          exact hE.left ⟨l.length, hlr⟩ j p hlp (by omega)
    · intro i k j e hik
      rcases Nat.lt_trichotomy (k : Nat) l.length with hk | hk | hk
      · rw [List.getElem?_append_left hk] at e
        rw [k2 i j]
        · exact g3 i k j e hik
        · rw [hrow]
          have e' : pivs[(k : Nat)]? = some (j : Nat) := by
            obtain ⟨t, rfl⟩ := hpre
            rw [List.append_assoc, List.getElem?_append_left hk]
            exact e
          exact hE.left ⟨l.length, hlr⟩ j p hlp (hE.lt_of_lt hk e' hlp)
      · rw [hk, List.getElem?_append_right (le_refl _), Nat.sub_self] at e
        simp only [List.getElem?_cons_zero, Option.some.injEq] at e
        have ek : k = ⟨l.length, hlr⟩ := Fin.ext hk
        have ej : j = ⟨p, hpc⟩ := Fin.ext e.symm
        rw [ek, ej]
        rw [hrow] at k3
        exact k3 i (show (i : Nat) < l.length by have : (i : Nat) < k := hik; omega)
      · rw [List.getElem?_eq_none (by simp; omega)] at e
        simp at e

theorem EucOps.Models.rowReducedHermite {r c : Nat} {m : Mat α} {A : Matrix (Fin r) (Fin c) R} (hm : m.Denotes v A) :
    ∃ mh mu pivs H U, S.rowReducedHermite m = some (mh, mu, pivs) ∧ mh.Denotes v H ∧ mu.Denotes v U ∧ H = U * A ∧ IsUnit U.det ∧
      IsRowEchelon H pivs ∧ (∀ (i : Fin r) (j : Fin c), pivs[(i : Nat)]? = some (j : Nat) → S.IsFav v (H i j)) ∧
      ∀ (i k : Fin r) (j : Fin c), pivs[(k : Nat)]? = some (j : Nat) → i < k → S.Small v (H i j) (H k j) := by
  obtain ⟨res, H, U, e, hH, hU, hmul, hdet, hunit, hE, hF⟩ := h.bezout.rowHermite hm
  obtain ⟨hu, H', U', e', hI, hE', g1, g2⟩ := h.reduceLoop (hu := (res.h, res.u)) (A := A) ⟨hH, hU, hmul, hdet⟩ hE
  refine ⟨hu.1, hu.2, res.pivs, H', U', ?_, hI.m, hI.u, hI.mul, by rw [hI.det]; exact hunit, hE', ?_, g2⟩
  · unfold EucOps.rowReducedHermite
    rw [e]
    change ((enumerateFrom 0 res.pivs).foldlM S.reducePivot (res.h, res.u)).bind _ = _
    rw [e']
    rfl
  · intro i j e
    rw [g1 i j e]
    exact hF i j e

theorem EucOps.Models.matInv {n : Nat} {m : Mat α} {A : Matrix (Fin n) (Fin n) R} (hm : m.Denotes v A) :
    (IsUnit A.det ∧ ∃ i, S.matInv m = some (some i) ∧ i.Denotes v A⁻¹) ∨ (¬ IsUnit A.det ∧ S.matInv m = some none) := by
  haveI := h.toFav.toDomain.domain
  have hS := h.toFav.toDomain.toRing.toSemi
  obtain ⟨mh, mu, pivs, H, U, e, hH, hU, hmul, hunit, hE, hF, hR⟩ := h.rowReducedHermite hm
  obtain ⟨one, e1, hone⟩ := hS.matIdent n
  obtain ⟨b, eb, hb⟩ := hS.matEqual hH hone
  have hmi : S.matInv m = if b = true then some (some mu) else some none := by
    unfold EucOps.matInv
    rw [hm.rows, hm.cols, e]
    change (assertThat (n == n)).bind (fun _ => (S.matIdent n).bind fun one => (S.matEqual mh one).bind fun eq => match eq with
      | true => some (some mu)
      | false => some none) = _
    rw [beq_self_eq_true, e1]
    change (S.matEqual mh one).bind _ = _
    rw [eb]
    cases b <;> rfl
  rw [hmi]
  by_cases hA : IsUnit A.det
  · have hH1 : H = 1 := by
      have hdetH : IsUnit H.det := by rw [hmul, Matrix.det_mul]; exact hunit.mul hA
      have hdiag : ∀ i, IsUnit (H i i) := by
        intro i
        rw [hE.det] at hdetH
        exact isUnit_of_dvd_unit (Finset.dvd_prod_of_mem (fun i => H i i) (Finset.mem_univ i)) hdetH
      have hlen : pivs.length = n := by
        refine le_antisymm hE.le ?_
        by_contra hlt
        have hn : pivs.length < n := by omega
        have := hdiag ⟨pivs.length, hn⟩
        rw [hE.below ⟨pivs.length, hn⟩ ⟨pivs.length, hn⟩ (le_refl _)] at this
        exact not_isUnit_zero this
      have hpiv : ∀ i : Fin n, pivs[(i : Nat)]? = some (i : Nat) := by
        intro i
        have hi : (i : Nat) < pivs.length := by rw [hlen]; exact i.2
        have hge := hE.le_piv (List.getElem?_eq_getElem hi)
        rcases Nat.lt_or_eq_of_le hge with h1 | h1
        · exact absurd (hE.left i i _ (List.getElem?_eq_getElem hi) h1) (hdiag i).ne_zero
        · rw [List.getElem?_eq_getElem hi, ← h1]
      have hone' : ∀ i, H i i = 1 := fun i =>
        h.toFav.isFav_eq (hF i i (hpiv i)) h.toFav.isFav_one (associated_one_iff_isUnit.2 (hdiag i))
      ext i j
      rcases lt_trichotomy i j with hij | hij | hij
      · rw [Matrix.one_apply_ne hij.ne]
        rcases hR i j j (hpiv j) hij with h0 | h0
        · exact h0
        · exfalso
          obtain ⟨x, hx⟩ := hS.surj (H i j)
          obtain ⟨n1, m1, hn1, hm1, hlt⟩ := h0 x S.one hx (by rw [hone', hS.one])
          have := h.norm_dvd S.one x m1 n1 (by rw [hS.one]; exact one_dvd _) hm1 hn1
          omega
      · rw [hij, hone', Matrix.one_apply_eq]
      · rw [Matrix.one_apply_ne hij.ne', hE.lower i j hij]
    rw [if_pos (hb.2 hH1)]
    refine .inl ⟨hA, mu, rfl, ?_⟩
    rw [Matrix.inv_eq_left_inv (hmul.symm.trans hH1)]
    exact hU
  · have : ¬ b = true := by
      rw [hb]
      intro hH1
      apply hA
      have := congrArg Matrix.det (hmul.symm.trans hH1)
      rw [Matrix.det_mul, Matrix.det_one] at this
      exact IsUnit.of_mul_eq_one U.det (by rw [mul_comm]; exact this)
    rw [if_neg this]
    exact .inr ⟨hA, rfl⟩

end

end Verif.Rings
