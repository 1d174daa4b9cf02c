import Verif.Proofs.MatrixRing

/-!
# Determinants by permutations; joining matrices
-/

namespace Verif.Rings

open Verif.Perm Verif.Props.Perm

theorem sum_allPermutations {M : Type} [AddCommMonoid M] (n : Nat) (F : List Nat → M) :
    ((allPermutations n).map F).sum = ∑ σ : Equiv.Perm (Fin n), F (ofPerm n σ).1 := by
  obtain ⟨hnd, -, hmem⟩ := C45_all_permutations n
  rw [← List.sum_toFinset F hnd]
  have himg : (allPermutations n).toFinset = Finset.univ.image fun σ : Equiv.Perm (Fin n) => (ofPerm n σ).1 := by
    ext p
    rw [List.mem_toFinset, hmem, Finset.mem_image]
    constructor
    · rintro ⟨hv, hfix⟩
      obtain ⟨σ, hσ⟩ := (mem_range_ofPerm n ⟨p, hv⟩).2 hfix
      exact ⟨σ, Finset.mem_univ _, by rw [hσ]⟩
    · rintro ⟨σ, -, rfl⟩
      exact ⟨(ofPerm n σ).2, (mem_range_ofPerm n _).1 ⟨σ, rfl⟩⟩
  rw [himg, Finset.sum_image]
  intro σ _ τ _ e
  exact ofPerm_injective n (Subtype.ext e)

theorem sign_ofPerm (n : Nat) (σ : Equiv.Perm (Fin n)) :
    (Verif.Perm.sign (ofPerm n σ).1 = .flip ↔ Equiv.Perm.sign σ = -1) ∧
      (Verif.Perm.sign (ofPerm n σ).1 = .identity ↔ Equiv.Perm.sign σ = 1) := by
  apply C08_sign _ (ofPerm n σ).2 n σ
  · intro i
    rw [call_ofPerm']
    unfold extend
    rw [dif_pos i.2]
  · exact (mem_range_ofPerm n _).1 ⟨σ, rfl⟩

section
variable {α R : Type} [CommRing R] {S : RingOps α} {v : α → R} (h : S.Models v)
include h

theorem RingOps.Models.matNeg {a : Mat α} {r c : Nat} {A : Matrix (Fin r) (Fin c) R} (ha : a.Denotes v A) :
    ∃ s, S.matNeg a = some s ∧ s.Denotes v (-A) := by
  obtain ⟨f, hf, hvf⟩ := (Mat.denotes_iff S.zero).1 ha
  unfold RingOps.matNeg
  rw [ha.rows, ha.cols]
  obtain ⟨s, e, hs⟩ := hf.loopRC (step := Mat.modify fun y => some (S.neg y)) (fun i j y => S.neg y) (by
    intro m k i j hi hj hm _
    exact hm.modify hi hj rfl)
  refine ⟨s, e, hs.denotes' fun i j => ?_⟩
  rw [h.neg, hvf]
  rfl

theorem RingOps.Models.detTerm {a : Mat α} {n : Nat} {A : Matrix (Fin n) (Fin n) R} (ha : a.Denotes v A) (σ : Equiv.Perm (Fin n)) :
    ∃ x, S.detTerm a n (ofPerm n σ).1 = some x ∧ v x = Equiv.Perm.sign σ • ∏ i, A i (σ i) := by
  obtain ⟨f, hf, hvf⟩ := (Mat.denotes_iff S.zero).1 ha
  have hlt : ∀ k, k < n → call (ofPerm n σ).1 k < n := by
    intro k hk
    rw [call_ofPerm']
    exact extend_lt σ k hk
  unfold RingOps.detTerm
  rw [foldlM_some (List.range n) (F := fun prod k => S.mul prod (f k (call (ofPerm n σ).1 k))) (by
    intro b k hk
    rw [List.mem_range] at hk
    rw [hf.get _ _ hk (hlt k hk)]
    rfl)]
  refine ⟨_, rfl, ?_⟩
  have hprod : v ((List.range n).foldl (fun prod k => S.mul prod (f k (call (ofPerm n σ).1 k))) S.one) = ∏ i, A i (σ i) := by
    have := h.toSemi.foldl_mul ((List.range n).map fun k => f k (call (ofPerm n σ).1 k)) S.one
    rw [List.foldl_map, h.one, one_mul, List.map_map] at this
    rw [this]
    change ((List.range n).map fun k => v (f k (call (ofPerm n σ).1 k))).prod = _
    rw [prod_range_fin]
    refine Finset.prod_congr rfl fun i _ => ?_
    rw [← hvf]
    congr 2
    rw [call_ofPerm']
    unfold extend
    rw [dif_pos i.2]
  unfold RingOps.detSigned
  cases hs : Verif.Perm.sign (ofPerm n σ).1 with
  | identity =>
    rw [(sign_ofPerm n σ).2.1 hs, one_smul, ← hprod]
  | flip =>
    rw [(sign_ofPerm n σ).1.1 hs, Units.neg_smul, one_smul, ← hprod]
    exact h.neg _

theorem RingOps.Models.detNaive {a : Mat α} {n : Nat} {A : Matrix (Fin n) (Fin n) R} (ha : a.Denotes v A) :
    ∃ x, S.detNaive a = some (.ok x) ∧ v x = A.det := by
  have hd : a.dim1 = a.dim2 := ha.dims.2 rfl
  have hn : a.dim1 = n := by
    have := ha.rows
    unfold Mat.rows at this
    split at this <;> omega
  have hall : ∀ p ∈ allPermutations n, ∃ x, S.detTerm a n p = some x := by
    intro p hp
    obtain ⟨hv, hfix⟩ := ((C45_all_permutations n).2.2 p).1 hp
    obtain ⟨σ, hσ⟩ := (mem_range_ofPerm n ⟨p, hv⟩).2 hfix
    obtain ⟨x, hx, -⟩ := h.detTerm ha σ
    exact ⟨x, by rw [hσ] at hx; exact hx⟩
  let G : List Nat → α := fun p => (S.detTerm a n p).getD S.zero
  have hG : ∀ p ∈ allPermutations n, S.detTerm a n p = some (G p) := by
    intro p hp
    obtain ⟨x, hx⟩ := hall p hp
    simp only [G, hx, Option.getD_some]
  unfold RingOps.detNaive
  rw [if_neg (by simp [hd]), hn, foldlM_some (allPermutations n) (F := fun det p => S.add det (G p)) (by
    intro b p hp
    rw [hG p hp]
    rfl)]
  refine ⟨_, rfl, ?_⟩
  have := h.toSemi.foldl_add ((allPermutations n).map G) S.zero
  rw [List.foldl_map, h.zero, zero_add, List.map_map] at this
  rw [this]
  change ((allPermutations n).map fun p => v (G p)).sum = _
  rw [sum_allPermutations, ← Matrix.det_transpose, Matrix.det_apply]
  refine Finset.sum_congr rfl fun σ _ => ?_
  obtain ⟨x, hx, hv⟩ := h.detTerm ha σ
  simp only [G, hx, Option.getD_some, hv]
  rfl

end

section
variable {α R : Type}

theorem Mat.Denotes.cast {v : α → R} {m : Mat α} {r r' c : Nat} {A : Matrix (Fin r) (Fin c) R} (h : m.Denotes v A) (e : r' = r) :
    m.Denotes v (Matrix.of fun (i : Fin r') (j : Fin c) => A (Fin.cast e i) j) := by
  subst e
  exact h

theorem Mat.Denotes.cast' {v : α → R} {m : Mat α} {r r' c c' : Nat} {A : Matrix (Fin r) (Fin c) R} {B : Matrix (Fin r') (Fin c') R}
    (h : m.Denotes v A) (e : r = r') (e' : c = c') (hAB : ∀ i j, A i j = B (Fin.cast e i) (Fin.cast e' j)) : m.Denotes v B := by
  subst e e'
  have : A = B := by ext i j; exact hAB i j
  rw [← this]
  exact h

theorem Mat.Denotes.ofFn {v : α → R} {m : Mat α} {r c : Nat} {A : Matrix (Fin r) (Fin c) R} (h : m.Denotes v A) :
    m.Denotes v (rowsMatrix (List.ofFn fun i j => A i j)) := by
  refine h.cast' (by simp) rfl ?_
  intro i j
  unfold rowsMatrix
  change _ = ((List.ofFn fun i j => A i j)[(i : Nat)]'(by simp)) j
  rw [List.getElem_ofFn]

theorem joinRowsEntry_spec {v : α → R} {c : Nat} {mats : List (Mat α)} {Ls : List (List (Fin c → R))}
    (h : List.Forall₂ (fun m L => m.Denotes v (rowsMatrix L)) mats Ls) (off r : Nat) (j : Fin c) (row : Fin c → R) (ho : off ≤ r)
    (hr : Ls.flatten[r - off]? = some row) : ∃ x, joinRowsEntry c mats off r j = some x ∧ v x = row j := by
  induction h generalizing off with
  | nil => simp at hr
  | cons hm hms ih =>
    rename_i m L ms Ls'
    unfold joinRowsEntry
    have hrows : m.rows = L.length := hm.rows
    by_cases hlt : r < off + m.rows
    · rw [if_pos ⟨ho, hlt, j.2⟩]
      rw [List.flatten_cons, List.getElem?_append_left (by omega)] at hr
      obtain ⟨x, hx, hv⟩ := hm.get ⟨r - off, by omega⟩ j
      refine ⟨x, hx, ?_⟩
      rw [hv]
      unfold rowsMatrix
      rw [List.getElem?_eq_getElem (by omega), Option.some_inj] at hr
      rw [← hr]
      rfl
    · rw [if_neg (by omega)]
      apply ih _ (by omega)
      rw [List.flatten_cons, List.getElem?_append_right (by omega)] at hr
      rw [← hr]
      congr 1
      omega

theorem Mat.joinRows_spec {v : α → R} {c : Nat} {mats : List (Mat α)} {Ls : List (List (Fin c → R))}
    (h : List.Forall₂ (fun m L => m.Denotes v (rowsMatrix L)) mats Ls) :
    ∃ s, Mat.joinRows c mats = some s ∧ s.Denotes v (rowsMatrix Ls.flatten) := by
  have hcols : (mats.all fun m => c == m.cols) = true := by
    rw [List.all_eq_true]
    intro m hm
    obtain ⟨L, hL⟩ : ∃ L, m.Denotes v (rowsMatrix (c := c) L) := by
      induction h with
      | nil => simp at hm
      | cons h1 h2 ih =>
        rcases List.mem_cons.1 hm with rfl | hm
        · exact ⟨_, h1⟩
        · exact ih hm
    rw [hL.cols]
    simp
  have hsum : (mats.map Mat.rows).sum = Ls.flatten.length := by
    clear hcols
    induction h with
    | nil => rfl
    | cons h1 h2 ih => simp only [List.map_cons, List.sum_cons, List.flatten_cons, List.length_append, ih, h1.rows]
  unfold Mat.joinRows
  rw [if_pos hcols, hsum]
  have hex : ∀ (i j : Nat) (hi : i < Ls.flatten.length) (hj : j < c), ∃ x, joinRowsEntry c mats 0 i j = some x ∧
      v x = rowsMatrix Ls.flatten ⟨i, hi⟩ ⟨j, hj⟩ := by
    intro i j hi hj
    exact joinRowsEntry_spec h 0 i ⟨j, hj⟩ _ (by omega) (by rw [Nat.sub_zero, List.getElem?_eq_getElem hi]; rfl)
  by_cases hz : Nonempty α
  · obtain ⟨d⟩ := hz
    have hex' : ∀ i j : Nat, ∃ x, ∀ (hi : i < Ls.flatten.length) (hj : j < c), joinRowsEntry c mats 0 i j = some x ∧
        v x = rowsMatrix Ls.flatten ⟨i, hi⟩ ⟨j, hj⟩ := by
      intro i j
      by_cases hi : i < Ls.flatten.length
      · by_cases hj : j < c
        · obtain ⟨x, hx⟩ := hex i j hi hj
          exact ⟨x, fun _ _ => hx⟩
        · exact ⟨d, fun _ h => absurd h hj⟩
      · exact ⟨d, fun h => absurd h hi⟩
    choose f hf using hex'
    obtain ⟨s, e, hs, -⟩ := Mat.construct_rep (R := Ls.flatten.length) (C := c) (mk := joinRowsEntry c mats 0) (f := f)
      (fun i j hi hj => (hf i j hi hj).1)
    exact ⟨s, e, hs.denotes' fun i j => (hf i j i.2 j.2).2⟩
  · have hzero : Ls.flatten.length * c = 0 := by
      by_contra hne
      rcases Nat.eq_zero_or_pos Ls.flatten.length with h0 | h0
      · rw [h0] at hne; simp at hne
      · rcases Nat.eq_zero_or_pos c with h1 | h1
        · exact hne (by simp [h1])
        · obtain ⟨x, -⟩ := hex 0 0 h0 h1
          exact hz ⟨x⟩
    refine ⟨⟨Ls.flatten.length, c, false, false, false, []⟩, ?_, rfl, rfl, ?_, ?_⟩
    · unfold Mat.construct
      rw [hzero]
      rfl
    · exact hzero.symm
    · intro i j
      obtain ⟨x, -⟩ := hex i j i.2 j.2
      exact (hz ⟨x⟩).elim

theorem Mat.joinRows_dim {c : Nat} {mats : List (Mat α)} (h : ∃ m ∈ mats, m.cols ≠ c) : Mat.joinRows c mats = none := by
  obtain ⟨m, hm, hc⟩ := h
  unfold Mat.joinRows
  rw [if_neg]
  rw [List.all_eq_true]
  intro hall
  have := hall m hm
  simp at this
  exact hc this.symm

theorem Mat.joinCols_spec {v : α → R} {c : Nat} {mats : List (Mat α)} {Ls : List (List (Fin c → R))}
    (h : List.Forall₂ (fun m L => m.Denotes v (rowsMatrix L).transpose) mats Ls) :
    ∃ s, Mat.joinCols c mats = some s ∧ s.Denotes v (rowsMatrix Ls.flatten).transpose := by
  have h' : List.Forall₂ (fun m L => m.Denotes v (rowsMatrix L)) (mats.map Mat.transposed) Ls := by
    rw [List.forall₂_map_left_iff]
    exact h.imp fun m L hm => hm.transposed
  obtain ⟨s, e, hs⟩ := Mat.joinRows_spec h'
  exact ⟨s.transposed, by unfold Mat.joinCols; rw [e]; rfl, hs.transposed⟩

/-- `from_rows`: rectangular input with at least one row -/
theorem Mat.fromRows_spec (rowsElems : List (List α)) (c : Nat) (hne : rowsElems ≠ []) (hlen : ∀ l ∈ rowsElems, l.length = c) :
    ∃ m, Mat.fromRows rowsElems = some m ∧ m.rows = rowsElems.length ∧ m.cols = c ∧ m.elems.length = m.dim1 * m.dim2 ∧
      ∀ (i j : Nat) (hi : i < rowsElems.length) (hj : j < rowsElems[i].length), m.at i j = some (.ok rowsElems[i][j]) := by
  cases rowsElems with
  | nil => exact absurd rfl hne
  | cons row rest =>
    have hrow : row.length = c := hlen row (by simp)
    have hall : (rest.all fun r => r.length == row.length) = true := by
      rw [List.all_eq_true]
      intro r hr
      rw [hlen r (by simp [hr]), hrow]
      simp
    unfold Mat.fromRows
    dsimp only
    rw [if_pos hall, hrow]
    by_cases hz : Nonempty α
    · obtain ⟨d⟩ := hz
      obtain ⟨m, e, hm, -⟩ := Mat.construct_rep (R := (row :: rest).length) (C := c) (mk := entryOfRows (row :: rest))
        (f := fun i j => ((row :: rest).getD i []).getD j d) (by
          intro i j hi hj
          unfold entryOfRows
          rw [List.getElem?_eq_getElem hi, Option.bind_some, List.getElem?_eq_getElem (by
            rw [hlen _ (List.getElem_mem hi)]; exact hj), List.getD_eq_getElem _ _ hi, List.getD_eq_getElem])
      refine ⟨m, e, hm.rows, hm.cols, hm.length, ?_⟩
      intro i j hi hj
      rw [← Mat.get_some_iff, hm.get i j hi (by rw [← hlen _ (List.getElem_mem hi)]; exact hj), List.getD_eq_getElem _ _ hi,
        List.getD_eq_getElem _ _ hj]
    · have hc0 : c = 0 := by
        by_contra hc
        rw [← hrow] at hc
        exact hz ⟨row[0]⟩
      subst hc0
      refine ⟨⟨(row :: rest).length, 0, false, false, false, []⟩, ?_, rfl, rfl, rfl, ?_⟩
      · unfold Mat.construct
        rfl
      · intro i j hi hj
        rw [hlen _ (List.getElem_mem hi)] at hj
        omega

end

section
variable {α R : Type} [Semiring R] {S : SemiRingOps α} {v : α → R} (h : S.Models v)
include h

/-- the block diagonal matrix, entrywise -/
theorem SemiRingOps.Models.joinDiagTwo {a b : Mat α} {r c r' c' : Nat} {A : Matrix (Fin r) (Fin c) R} {B : Matrix (Fin r') (Fin c') R}
    (ha : a.Denotes v A) (hb : b.Denotes v B) : ∃ s, S.joinDiagTwo a b = some s ∧
      s.Denotes v (Matrix.reindex finSumFinEquiv finSumFinEquiv (Matrix.fromBlocks A 0 0 B)) := by
  obtain ⟨f, hf, hvf⟩ := (Mat.denotes_iff S.zero).1 ha
  obtain ⟨g, hg, hvg⟩ := (Mat.denotes_iff S.zero).1 hb
  unfold SemiRingOps.joinDiagTwo
  rw [ha.rows, ha.cols, hb.rows, hb.cols]
  obtain ⟨s, e, hs, -⟩ := Mat.construct_rep (R := r + r') (C := c + c') (mk := S.joinDiagEntry a b)
    (f := fun i j => if i < r ∧ j < c then f i j else if r ≤ i ∧ c ≤ j then g (i - r) (j - c) else S.zero) (by
      intro i j hi hj
      unfold SemiRingOps.joinDiagEntry
      rw [ha.rows, ha.cols]
      split
      · rename_i hh; exact hf.get i j hh.1 hh.2
      · split
        · rename_i hh; exact hg.get _ _ (by omega) (by omega)
        · rfl)
  refine ⟨s, e, hs.denotes' fun i j => ?_⟩
  rw [Matrix.reindex_apply, Matrix.submatrix_apply]
  obtain ⟨i', rfl⟩ := finSumFinEquiv.surjective i
  obtain ⟨j', rfl⟩ := finSumFinEquiv.surjective j
  rw [Equiv.symm_apply_apply, Equiv.symm_apply_apply]
  rcases i' with i' | i' <;> rcases j' with j' | j'
  · simp only [finSumFinEquiv_apply_left, Fin.val_castAdd, i'.2, j'.2, and_self, if_true, Matrix.fromBlocks_apply₁₁]
    exact hvf _ _
  · have : ¬ (r ≤ (i' : Nat)) := by omega
    simp [this, h.zero]
  · have : ¬ (c ≤ (j' : Nat)) := by omega
    simp [this, h.zero]
  · simp only [finSumFinEquiv_apply_right, Fin.val_natAdd, Matrix.fromBlocks_apply₂₂]
    have h1 : ¬ (r + (i' : Nat) < r ∧ c + (j' : Nat) < c) := by omega
    have h2 : r ≤ r + (i' : Nat) ∧ c ≤ c + (j' : Nat) := by omega
    simp only [h1, h2, if_false, if_true, and_self, Nat.add_sub_cancel_left]
    exact hvg _ _

end

end Verif.Rings
