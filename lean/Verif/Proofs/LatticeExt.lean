import Verif.Proofs.LatticeHyper
import Mathlib.LinearAlgebra.Matrix.Rank
import Mathlib.LinearAlgebra.FiniteDimensional.Lemmas

/-! # Extending a basis of a sublattice -/

namespace Verif.Rings

section
variable {R : Type} [CommRing R] [IsDomain R]

/-- The columns of the pivots of an echelon form are linearly independent. -/
theorem IsRowEchelon.cols_indep {m n : Nat} {A H : Matrix (Fin m) (Fin n) R} {U : Matrix (Fin m) (Fin m) R} {pivs : List Nat}
    (hE : IsRowEchelon H pivs) (hmul : H = U * A) :
    LinearIndependent R (fun (i : Fin pivs.length) => A.transpose ⟨pivs[i], hE.lt _ (List.getElem_mem _)⟩) := by
  rw [Fintype.linearIndependent_iff]
  intro g hg
  set f : Fin pivs.length → Fin n := fun i => ⟨pivs[i], hE.lt _ (List.getElem_mem _)⟩ with hf
  let T : Matrix (Fin pivs.length) (Fin pivs.length) R := H.submatrix (Fin.castLE hE.le) f
  have hget : ∀ i : Fin pivs.length, pivs[(i : Nat)]? = some ((f i : Fin n) : Nat) := by
    intro i
    rw [List.getElem?_eq_getElem i.2]
    rfl
  have hdet : T.det ≠ 0 := by
    rw [Matrix.det_of_upperTriangular]
    · exact Finset.prod_ne_zero_iff.2 fun i _ => hE.pivot _ _ (hget i)
    · intro i j hij
      exact hE.below_pivot (i := j) (by exact hij) (hget j)
  have hT : T.mulVec g = 0 := by
    funext i
    have hA : A.mulVec (∑ j, g j • (Pi.single (f j) (1 : R) : Fin n → R)) = 0 := by
      rw [Matrix.mulVec_sum, ← hg]
      refine Finset.sum_congr rfl fun j _ => ?_
      rw [Matrix.mulVec_smul, Matrix.mulVec_single_one]
      rfl
    have hH : H.mulVec (∑ j, g j • (Pi.single (f j) (1 : R) : Fin n → R)) = 0 := by
      rw [hmul, ← Matrix.mulVec_mulVec, hA, Matrix.mulVec_zero]
    rw [Matrix.mulVec_sum] at hH
    have := congrFun hH (Fin.castLE hE.le i)
    rw [Finset.sum_apply] at this
    change ∑ j, T i j * g j = 0
    refine Eq.trans ?_ this
    refine Finset.sum_congr rfl fun j _ => ?_
    rw [Matrix.mulVec_smul, Matrix.mulVec_single_one, mul_comm]
    rfl
  have := Matrix.eq_zero_of_mulVec_eq_zero hdet hT
  intro i
  exact congrFun this i

/-- The first columns of an echelon form are in echelon form. -/
theorem IsRowEchelon.take_cols {m a n : Nat} {H : Matrix (Fin m) (Fin n) R} {pivs : List Nat} (hE : IsRowEchelon H pivs) (ha : a ≤ n) :
    IsRowEchelon (H.submatrix id (Fin.castLE ha)) (pivs.filter fun p => decide (p < a)) := by
  have hpre : ∀ (l : List Nat), l.Pairwise (· < ·) → ∀ (i p : Nat), (l.filter fun p => decide (p < a))[i]? = some p → l[i]? = some p := by
    intro l
    induction l with
    | nil => intro _ i p hp; simp at hp
    | cons x l ih =>
      intro hl i p hp
      rw [List.pairwise_cons] at hl
      by_cases hx : x < a
      · rw [List.filter_cons_of_pos (by simpa using hx)] at hp
        cases i with
        | zero => exact hp
        | succ i => exact ih hl.2 i p hp
      · have : (x :: l).filter (fun p => decide (p < a)) = [] := by
          rw [List.filter_eq_nil_iff]
          intro y hy
          rcases List.mem_cons.1 hy with rfl | hy
          · simpa using hx
          · have := hl.1 y hy; simp; omega
        rw [this] at hp
        simp at hp
  refine ⟨hE.increasing.filter _, (List.length_filter_le _ _).trans hE.le, ?_, ?_, ?_, ?_⟩
  · intro p hp
    simpa using (List.mem_filter.1 hp).2
  · intro i j hp
    exact hE.pivot i (Fin.castLE ha j) (hpre _ hE.increasing _ _ hp)
  · intro i j p hp hj
    exact hE.left i (Fin.castLE ha j) p (hpre _ hE.increasing _ _ hp) hj
  · intro i j hi
    change H i (Fin.castLE ha j) = 0
    cases hp : pivs[(i : Nat)]? with
    | none => exact hE.below i _ (by rwa [List.getElem?_eq_none_iff] at hp)
    | some p =>
      by_cases hpa : p < a
      · exfalso
        have hlt : (i : Nat) < pivs.length := (List.getElem?_eq_some_iff.1 hp).1
        have hsub : pivs.take (i + 1) ⊆ pivs.filter fun p => decide (p < a) := by
          intro x hx
          obtain ⟨j, hj, hjx⟩ := List.mem_iff_getElem.1 hx
          rw [List.length_take] at hj
          rw [List.getElem_take] at hjx
          refine List.mem_filter.2 ⟨hjx ▸ List.getElem_mem _, ?_⟩
          rcases Nat.lt_or_eq_of_le (show j ≤ i by omega) with hji | rfl
          · have := hE.lt_of_lt hji (List.getElem?_eq_some_iff.2 ⟨by omega, hjx⟩) hp
            simp; omega
          · have : x = p := by
              rw [List.getElem?_eq_some_iff] at hp
              obtain ⟨_, hp⟩ := hp
              rw [← hjx, hp]
            simpa [this] using hpa
        have hnd : (pivs.take (i + 1)).Nodup := (hE.increasing.imp (fun h => Nat.ne_of_lt h)).sublist (List.take_sublist _ _)
        have := (hnd.subperm hsub).length_le
        rw [List.length_take] at this
        omega
      · exact hE.left i _ p hp (by change (j : Nat) < p; omega)

/-- A strictly increasing list of `a` numbers below `a`. -/
theorem eq_range_of_increasing {a : Nat} {l : List Nat} (hl : l.Pairwise (· < ·)) (hlt : ∀ x ∈ l, x < a) (hlen : l.length = a) :
    l = List.range a := by
  have hperm : l.Perm (List.range a) := by
    have hnd : l.Nodup := hl.imp (fun h => Nat.ne_of_lt h)
    refine (hnd.subperm fun x hx => by simpa using hlt x hx).perm_of_length_le ?_
    simp [hlen]
  exact hperm.eq_of_pairwise (fun a b _ _ h1 h2 => absurd h1 (by omega)) hl List.pairwise_lt_range

theorem filter_split {a : Nat} {l : List Nat} (hl : l.Pairwise (· < ·)) :
    l = (l.filter fun p => decide (p < a)) ++ l.filter fun p => decide (a ≤ p) := by
  induction l with
  | nil => rfl
  | cons x l ih =>
    rw [List.pairwise_cons] at hl
    by_cases hx : x < a
    · rw [List.filter_cons_of_pos (by simpa using hx), List.filter_cons_of_neg (by simpa using hx), List.cons_append, ← ih hl.2]
    · have h1 : (x :: l).filter (fun p => decide (p < a)) = [] := by
        rw [List.filter_eq_nil_iff]
        intro y hy
        rcases List.mem_cons.1 hy with rfl | hy
        · simpa using hx
        · have := hl.1 y hy; simp; omega
      have h2 : (x :: l).filter (fun p => decide (a ≤ p)) = x :: l := by
        rw [List.filter_eq_self]
        intro y hy
        rcases List.mem_cons.1 hy with rfl | hy
        · simp; omega
        · have := hl.1 y hy; simp; omega
      rw [h1, h2, List.nil_append]

/-- The rank of a matrix with independent rows. -/
theorem rank_of_rows {m n : Nat} {A : Matrix (Fin m) (Fin n) R} (hA : LinearIndependent R A.row) :
    (A.map (algebraMap R (FractionRing R))).rank = m := by
  have h1 : LinearIndependent (FractionRing R) (A.map (algebraMap R (FractionRing R))).row := by
    rw [← LinearIndependent.iff_fractionRing R (FractionRing R)]
    let f : (Fin n → R) →ₗ[R] (Fin n → FractionRing R) := (Algebra.linearMap R (FractionRing R)).compLeft (Fin n)
    have hf : LinearMap.ker f = ⊥ := by
      rw [LinearMap.ker_eq_bot]
      intro x y hxy
      funext j
      exact IsFractionRing.injective R (FractionRing R) (congrFun hxy j)
    exact (LinearMap.linearIndependent_iff f hf).2 hA
  have := h1.rank_matrix
  simpa using this

end

section
variable {α R : Type} [CommRing R] {S : BezoutOps α} {v : α → R} (h : S.Models v)
include h

theorem BezoutOps.Models.extensionBasis {r c ka kb : Nat} {a b : LinLat α} {A : Fin ka → Matrix (Fin r) (Fin c) R}
    {B : Fin kb → Matrix (Fin r) (Fin c) R} (ha : a.HasBasis v A) (hb : b.HasBasis v B)
    (hle : Submodule.span R (Set.range A) ≤ Submodule.span R (Set.range B)) :
    ∃ ext q, ∃ E : Fin q → Matrix (Fin r) (Fin c) R, S.extensionBasis a b = some ext ∧ MatsDenote v ext E ∧ ka + q = kb ∧
      LinearIndependent R (Fin.append A E) ∧ ∀ n, ∃ m, E n = B m := by
  haveI := h.toGcd.toFav.toDomain.domain
  obtain ⟨x, ex, hx⟩ := h.latContainsSub ⟨kb, B, hb, rfl⟩ ⟨ka, A, ha, rfl⟩
  have hx' := hx.2 hle
  subst hx'
  obtain ⟨mm, emm, hmm⟩ := Mat.joinRows_two ha.denotes hb.denotes
  set A' : Matrix (Fin ka) (Fin (r * c)) R := Matrix.of fun n idx => A n idx.divNat idx.modNat with hA'
  set B' : Matrix (Fin kb) (Fin (r * c)) R := Matrix.of fun n idx => B n idx.divNat idx.modNat with hB'
  set M : Matrix (Fin (ka + kb)) (Fin (r * c)) R := Matrix.of (Fin.append A'.row B'.row) with hM
  have hMl : ∀ i, M (Fin.castAdd kb i) = A' i := fun i => Fin.append_left A'.row B'.row i
  have hMr : ∀ i, M (Fin.natAdd ka i) = B' i := fun i => Fin.append_right A'.row B'.row i
  have hAi : LinearIndependent R A'.row := ha.indep.map' (flatL R r c).toLinearMap (LinearEquiv.ker _)
  have hBi : LinearIndependent R B'.row := hb.indep.map' (flatL R r c).toLinearMap (LinearEquiv.ker _)
  obtain ⟨res, H, U, e, hH, -, hmul, hdet, hunit, hE, -⟩ := h.rowHermite hmm.transposed
  have hUdet : IsUnit U.det := by rw [hdet]; exact hunit
  let f := algebraMap R (FractionRing R)
  have hfi : Function.Injective f := IsFractionRing.injective R (FractionRing R)
  have hUf : IsUnit (U.map f).det := by
    have : (U.map f).det = f U.det := (RingHom.map_det f U).symm
    rw [this]
    exact hUdet.map f
  have hrankM : (M.map f).rank = kb := by
    have hrb : (B'.map f).rank = kb := rank_of_rows hBi
    apply le_antisymm
    · have hD : ∀ i, ∃ g : Fin kb → R, Matrix.vecMul g B' = M i := by
        intro i
        refine Fin.addCases (fun i => ?_) (fun i => ?_) i
        · have := hle (Submodule.subset_span ⟨i, rfl⟩)
          obtain ⟨g, hg⟩ := mem_span_family.1 this
          refine ⟨g, ?_⟩
          rw [hMl, Matrix.vecMul_eq_sum]
          have := congrArg (flatL R r c) hg
          rw [map_sum] at this
          simp only [map_smul] at this
          exact this
        · exact ⟨Pi.single i 1, by rw [hMr, Matrix.single_one_vecMul]; rfl⟩
      choose D hD using hD
      have : M = Matrix.of D * B' := by
        funext i
        exact (hD i).symm
      rw [this, Matrix.map_mul]
      exact (Matrix.rank_mul_le_right _ _).trans hrb.le
    · refine hrb.symm.le.trans ?_
      have : B' = (Matrix.of fun i : Fin kb => (Pi.single (Fin.natAdd ka i) (1 : R) : Fin (ka + kb) → R)) * M := by
        funext i
        change B' i = Matrix.vecMul (Pi.single (Fin.natAdd ka i) (1 : R)) M
        rw [Matrix.single_one_vecMul]
        exact (hMr i).symm
      rw [this, Matrix.map_mul]
      exact Matrix.rank_mul_le_right _ _
  have hlen : res.pivs.length = kb := by
    rw [← (hE.map f hfi).rank, hmul, Matrix.map_mul, Matrix.rank_mul_eq_right_of_isUnit_det _ _ hUf]
    exact (Matrix.rank_transpose (M.map f)).trans hrankM
  have hlow : (res.pivs.filter fun p => decide (p < ka)) = List.range ka := by
    have hT := hE.take_cols (a := ka) (by omega)
    refine eq_range_of_increasing hT.increasing hT.lt ?_
    rw [← (hT.map f hfi).rank]
    have : H.submatrix id (Fin.castLE (by omega : ka ≤ ka + kb)) = U * A'.transpose := by
      rw [hmul]
      ext i j
      rw [Matrix.submatrix_apply, Matrix.mul_apply, Matrix.mul_apply]
      refine Finset.sum_congr rfl fun l _ => ?_
      congr 1
      exact congrFun (hMl j) l
    rw [this, Matrix.map_mul, Matrix.rank_mul_eq_right_of_isUnit_det _ _ hUf]
    have : (A'.transpose.map f).rank = (A'.map f).rank := by
      rw [← Matrix.rank_transpose (A'.map f)]
      rfl
    rw [this]
    exact rank_of_rows hAi
  have hsplit := filter_split (a := ka) hE.increasing
  rw [hlow] at hsplit
  set L := res.pivs.filter fun p => decide (ka ≤ p) with hL
  have hLlen : ka + L.length = kb := by
    have := congrArg List.length hsplit
    rw [List.length_append, List.length_range, hlen] at this
    exact this.symm
  have hLlt : ∀ i : Fin L.length, L[i] < ka + kb := by
    intro i
    exact hE.lt _ (List.mem_of_mem_filter (List.getElem_mem _))
  have hLge : ∀ i : Fin L.length, ka ≤ L[i] := by
    intro i
    have := (List.mem_filter.1 (show L[i] ∈ res.pivs.filter fun p => decide (ka ≤ p) from List.getElem_mem _)).2
    simpa using this
  let E : Fin L.length → Matrix (Fin r) (Fin c) R := fun i => B ⟨L[i] - ka, by have := hLlt i; have := hLge i; omega⟩
  have hrow : ∀ i : Fin L.length, M ⟨L[i], hLlt i⟩ = flatL R r c (E i) := by
    intro i
    have : (⟨L[i], hLlt i⟩ : Fin (ka + kb)) = Fin.natAdd ka ⟨L[i] - ka, by have := hLlt i; have := hLge i; omega⟩ := by
      apply Fin.ext
      have := hLge i
      simp only [Fin.val_natAdd]
      omega
    rw [this, hMr]
    rfl
  have hmats : ∃ ext, L.mapM (metaRowMatrix mm r c) = some ext ∧ MatsDenote v ext E := by
    have hone : ∀ i : Fin L.length, ∃ m, metaRowMatrix mm r c L[i] = some m ∧ m.Denotes v (E i) := by
      intro i
      refine Mat.construct_denotes ?_
      intro p q
      obtain ⟨y, ey, hy⟩ := hmm.get ⟨L[i], hLlt i⟩ (finProdFinEquiv (p, q))
      refine ⟨y, ?_, ?_⟩
      · rw [latIdx_ok p.2 q.2, Option.bind_some]
        have : ((finProdFinEquiv (p, q) : Fin (r * c)) : Nat) = q + p * c := by
          rw [finProdFinEquiv_apply_val, Nat.mul_comm]
        rw [← this]
        exact ey
      · rw [hy]
        have := congrFun (hrow i) (finProdFinEquiv (p, q))
        rw [this]
        exact (flatL_symm_apply (flatL R r c (E i)) p q).symm.trans (by rw [LinearEquiv.symm_apply_apply])
    choose g hg1 hg2 using hone
    refine ⟨List.ofFn g, ?_, by simp, ?_⟩
    · have : L = (List.range L.length).map fun i => L.getD i 0 := by
        apply List.ext_getElem
        · simp
        · intro i h1 h2
          simp [List.getD_eq_getElem?_getD, h1]
      have h2 : L.mapM (metaRowMatrix mm r c) = (List.range L.length).mapM fun i => metaRowMatrix mm r c (L.getD i 0) := by
        conv_lhs => rw [this]
        rw [List.mapM_map]
        rfl
      rw [h2]
      refine mapM_range_ofFn fun i => ?_
      have : L.getD i 0 = L[i] := by simp [List.getD_eq_getElem?_getD]
      rw [this]
      exact hg1 i
    · intro n
      exact ⟨g n, by simp, hg2 n⟩
  obtain ⟨ext, eext, hext⟩ := hmats
  refine ⟨ext, L.length, E, ?_, hext, hLlen, ?_, fun n => ⟨_, rfl⟩⟩
  · unfold BezoutOps.extensionBasis BezoutOps.colHermite
    have har : (a.rows == b.rows) = true := by rw [ha.rows, hb.rows]; simp
    have hra := ha.rank
    have hrb := hb.rank
    rw [ha.rows, hb.rows, hb.cols, hra, hrb, ex]
    have hext_len : ext.length = L.length := hext.1
    simp only [beq_self_eq_true, assertThat, if_true, Option.bind_eq_bind, Option.bind_some, Option.map_some, emm, e]
    rw [← hL, eext, Option.bind_some, hext_len, hLlen]
    simp
  · have hc := hE.cols_indep hmul
    have hcast : ka + L.length = res.pivs.length := by rw [hlen, hLlen]
    have hc' := hc.comp (Fin.cast hcast) (Fin.cast_injective _)
    rw [← LinearMap.linearIndependent_iff (flatL R r c).toLinearMap (LinearEquiv.ker _)]
    have hfun : (flatL R r c).toLinearMap ∘ Fin.append A E =
        (fun (i : Fin res.pivs.length) => M.transpose.transpose ⟨res.pivs[i], hE.lt _ (List.getElem_mem _)⟩) ∘ Fin.cast hcast := by
      funext i
      refine Fin.addCases (fun i => ?_) (fun i => ?_) i
      · have hi : res.pivs[(i : Nat)]'(by omega) = i := by
          have := congrArg (fun l => l[(i : Nat)]?) hsplit
          simp only [List.getElem?_append_left (show (i : Nat) < (List.range ka).length by simp)] at this
          rw [List.getElem?_eq_getElem (by omega)] at this
          simpa using this
        change flatL R r c (Fin.append A E (Fin.castAdd _ i)) = M ⟨res.pivs[(i : Nat)]'(by omega), _⟩
        rw [Fin.append_left]
        have : (⟨res.pivs[(i : Nat)]'(by omega), by rw [hi]; omega⟩ : Fin (ka + kb)) = Fin.castAdd kb i := Fin.ext hi
        rw [this, hMl]
        rfl
      · have hi : res.pivs[ka + (i : Nat)]'(by omega) = L[i] := by
          have := congrArg (fun l => l[ka + (i : Nat)]?) hsplit
          simp only [List.getElem?_append_right (show (List.range ka).length ≤ ka + (i : Nat) by simp)] at this
          rw [List.getElem?_eq_getElem (by omega)] at this
          simpa using this
        change flatL R r c (Fin.append A E (Fin.natAdd _ i)) = M ⟨res.pivs[ka + (i : Nat)]'(by omega), _⟩
        rw [Fin.append_right]
        have : (⟨res.pivs[ka + (i : Nat)]'(by omega), by rw [hi]; exact hLlt i⟩ : Fin (ka + kb)) = ⟨L[i], hLlt i⟩ := Fin.ext hi
        rw [this, hrow]
    rw [hfun]
    exact hc'

end

end Verif.Rings
