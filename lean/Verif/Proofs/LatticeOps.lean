import Verif.Proofs.LatticeSolve

/-! # Membership, sums and intersections of lattices -/

namespace Verif.Rings

section
variable {α R : Type} [CommRing R] {S : BezoutOps α} {v : α → R}

theorem MetaBasis.cols {m : Mat α} {n : Nat} {N : Submodule R (Fin n → R)} (hm : MetaBasis v m N) : m.cols = n := by
  obtain ⟨k, B, hB, -⟩ := hm
  exact hB.cols

theorem mem_span_rows {k n : Nat} (B : Matrix (Fin k) (Fin n) R) (x : Fin n → R) :
    x ∈ Submodule.span R (Set.range B.row) ↔ ∃ y, Matrix.vecMul y B = x := by
  rw [← _root_.range_vecMulLinear]
  rfl

theorem iSup_cons {L : Type} [CompleteLattice L] (a : L) (l : List L) : (⨆ N ∈ a :: l, N) = a ⊔ ⨆ N ∈ l, N := by
  apply le_antisymm
  · rw [iSup₂_le_iff]
    intro N hN
    rcases List.mem_cons.1 hN with rfl | hN
    · exact le_sup_left
    · exact le_sup_of_le_right (le_iSup₂_of_le N hN le_rfl)
  · apply sup_le
    · exact le_iSup₂_of_le a (by simp) le_rfl
    · rw [iSup₂_le_iff]
      intro N hN
      exact le_iSup₂_of_le N (by simp [hN]) le_rfl

theorem iInf_cons {L : Type} [CompleteLattice L] (a : L) (l : List L) : (⨅ N ∈ a :: l, N) = a ⊓ ⨅ N ∈ l, N := by
  apply le_antisymm
  · apply le_inf
    · exact iInf₂_le_of_le a (by simp) le_rfl
    · rw [le_iInf₂_iff]
      intro N hN
      exact iInf₂_le_of_le N (by simp [hN]) le_rfl
  · rw [le_iInf₂_iff]
    intro N hN
    rcases List.mem_cons.1 hN with rfl | hN
    · exact inf_le_left
    · exact inf_le_of_right_le (iInf₂_le_of_le N hN le_rfl)

theorem mem_map_flatL {r c : Nat} {N : Submodule R (Matrix (Fin r) (Fin c) R)} {A : Matrix (Fin r) (Fin c) R} :
    flatL R r c A ∈ N.map (flatL R r c).toLinearMap ↔ A ∈ N := by
  rw [Submodule.mem_map_equiv, LinearEquiv.symm_apply_apply]

theorem forall₂_mem {β γ : Type} {P : β → γ → Prop} {l : List β} {l' : List γ} (h : List.Forall₂ P l l') {x : β} (hx : x ∈ l) :
    ∃ y ∈ l', P x y := by
  induction h with
  | nil => simp at hx
  | cons hp _ ih =>
    rcases List.mem_cons.1 hx with rfl | hx
    · exact ⟨_, by simp, hp⟩
    · obtain ⟨y, hy, hp⟩ := ih hx
      exact ⟨y, by simp [hy], hp⟩

theorem andM_some {a b : Option Bool} {P Q : Prop} (ha : ∃ x, a = some x ∧ (x = true ↔ P)) (hb : ∃ x, b = some x ∧ (x = true ↔ Q)) :
    ∃ x, andM a b = some x ∧ (x = true ↔ P ∧ Q) := by
  obtain ⟨x, rfl, hx⟩ := ha
  obtain ⟨y, rfl, hy⟩ := hb
  cases x with
  | false => exact ⟨false, rfl, by simp at hx; simp [hx]⟩
  | true => exact ⟨y, rfl, by rw [hy]; simp at hx; simp [hx]⟩

variable (h : S.Models v)
include h

theorem BezoutOps.Models.containsRow {lat : LinLat α} {n : Nat} {N : Submodule R (Fin n → R)} (hl : MetaBasis v lat.metamatrix N)
    {row : Mat α} {x : Fin n → R} (hx : row.Denotes v (rowL R n x)) : ∃ b, S.containsRow lat row = some b ∧ (b = true ↔ x ∈ N) := by
  obtain ⟨k, B, hB, -, rfl⟩ := hl
  unfold BezoutOps.containsRow
  rw [mem_span_rows]
  rcases h.rowSolve hB hx with ⟨s, X, e, -, hX⟩ | ⟨e, hno⟩
  · rw [e]
    refine ⟨true, rfl, ?_⟩
    simp only [true_iff]
    exact ⟨X 0, congrFun hX 0⟩
  · rw [e]
    refine ⟨false, rfl, ?_⟩
    simp only [Bool.false_eq_true, false_iff]
    rintro ⟨y, hy⟩
    refine hno ⟨rowL R k y, ?_⟩
    ext i j
    rw [Subsingleton.elim i 0]
    exact congrFun hy j

theorem BezoutOps.Models.latContains {lat : LinLat α} {r c : Nat} {N : Submodule R (Matrix (Fin r) (Fin c) R)} (hl : lat.Denotes v N)
    {m : Mat α} {A : Matrix (Fin r) (Fin c) R} (hm : m.Denotes v A) : ∃ b, S.latContains lat m = some b ∧ (b = true ↔ A ∈ N) := by
  obtain ⟨hr, hc, hB⟩ := LinLat.denotes_iff.1 hl
  obtain ⟨row, er, hrow⟩ := matsToRows_spec (v := v) (mats := [m]) (B := fun _ : Fin 1 => A)
    ⟨rfl, fun n => ⟨m, by rw [Subsingleton.elim n 0]; rfl, hm⟩⟩
  obtain ⟨b, eb, hb⟩ := h.containsRow hB (row := row) (x := flatL R r c A) hrow
  refine ⟨b, ?_, ?_⟩
  · unfold BezoutOps.latContains
    rw [hr, hc, er]
    exact eb
  · rw [hb]
    exact mem_map_flatL

theorem BezoutOps.Models.latContainsSub {a b : LinLat α} {r c : Nat} {N N' : Submodule R (Matrix (Fin r) (Fin c) R)} (ha : a.Denotes v N)
    (hb : b.Denotes v N') : ∃ x, S.latContainsSub a b = some x ∧ (x = true ↔ N' ≤ N) := by
  obtain ⟨hr, hc, hA⟩ := LinLat.denotes_iff.1 ha
  obtain ⟨hr', hc', hA'⟩ := LinLat.denotes_iff.1 hb
  obtain ⟨k, B, hB, rfl⟩ := hb
  unfold BezoutOps.latContainsSub
  rw [hA.cols, hA'.cols]
  simp only [assertThat, beq_self_eq_true, if_true, Option.bind_eq_bind, Option.bind_some]
  rw [hB.rank]
  obtain ⟨x, ex, hx⟩ := allM_some (List.range k) (p := fun n => S.containsBasisRow a b n) (P := fun n => ∀ hn : n < k, B ⟨n, hn⟩ ∈ N) (by
    intro n hn
    have hn' : n < k := by simpa using hn
    obtain ⟨row, er, hrow⟩ := hB.basisRow ⟨n, hn'⟩
    obtain ⟨y, ey, hy⟩ := h.containsRow hA hrow
    refine ⟨y, ?_, ?_⟩
    · unfold BezoutOps.containsBasisRow
      rw [er]
      exact ey
    · rw [hy]
      exact mem_map_flatL.trans ⟨fun h _ => h, fun h => h hn'⟩)
  refine ⟨x, ex, ?_⟩
  rw [hx, Submodule.span_le]
  constructor
  · rintro hall _ ⟨n, rfl⟩
    exact hall n (by simp) n.2
  · intro hall n _ hn
    exact hall ⟨⟨n, hn⟩, rfl⟩

theorem BezoutOps.Models.latEqual {a b : LinLat α} {r c : Nat} {N N' : Submodule R (Matrix (Fin r) (Fin c) R)} (ha : a.Denotes v N)
    (hb : b.Denotes v N') : ∃ x, S.latEqual a b = some x ∧ (x = true ↔ N = N') := by
  unfold BezoutOps.latEqual
  obtain ⟨x, e, hx⟩ := andM_some (h.latContainsSub ha hb) (h.latContainsSub hb ha)
  exact ⟨x, e, by rw [hx, le_antisymm_iff]; tauto⟩

omit h in
theorem LinLat.HasBasis.transpose {lat : LinLat α} {k r c : Nat} {B : Fin k → Matrix (Fin r) (Fin c) R} (hB : lat.HasBasis v B) :
    ∃ l, lat.transpose = some l ∧ l.HasBasis v (fun n => (B n).transpose) := by
  obtain ⟨ms, e, hl, hms⟩ := hB.basisMatrices
  obtain ⟨m, em, hm⟩ := matsToRows_spec (v := v) (mats := ms.map Mat.transposed) (B := fun n => (B n).transpose) ⟨by simpa using hl, by
    intro n
    obtain ⟨m, e, hm⟩ := hms n
    exact ⟨m.transposed, by rw [List.getElem?_map, e]; rfl, hm.transposed⟩⟩
  refine ⟨⟨m, lat.cols, lat.rows⟩, ?_, ?_⟩
  · unfold LinLat.transpose
    rw [e, hB.rows, hB.cols]
    simp only [Option.bind_eq_bind, Option.bind_some, em]
  · refine ⟨hB.cols, hB.rows, hm, ?_⟩
    exact hB.indep.map' (Matrix.transposeLinearEquiv (Fin r) (Fin c) R R).toLinearMap (LinearEquiv.ker _)

omit h in
theorem span_rowsMatrix {n : Nat} (L : List (Fin n → R)) :
    Submodule.span R (Set.range (rowsMatrix L).row) = Submodule.span R {x | x ∈ L} := by
  congr 1
  ext x
  constructor
  · rintro ⟨i, rfl⟩
    exact List.getElem_mem _
  · intro hx
    obtain ⟨i, hi, rfl⟩ := List.mem_iff_getElem.1 hx
    exact ⟨⟨i, hi⟩, rfl⟩

omit h in
theorem forall₂_metaBasis {n : Nat} {ms : List (Mat α)} {Ns : List (Submodule R (Fin n → R))}
    (hm : List.Forall₂ (fun m N => MetaBasis v m N) ms Ns) :
    ∃ Ls : List (List (Fin n → R)), List.Forall₂ (fun m L => m.Denotes v (rowsMatrix L)) ms Ls ∧
      Submodule.span R {x | x ∈ Ls.flatten} = ⨆ N ∈ Ns, N := by
  induction hm with
  | nil => exact ⟨[], .nil, by simp⟩
  | cons hB _ ih =>
    obtain ⟨Ls, h1, h2⟩ := ih
    obtain ⟨k, B, hd, -, hs⟩ := hB
    refine ⟨(List.ofFn fun i => fun j => B i j) :: Ls, .cons hd.rowsList h1, ?_⟩
    rw [List.flatten_cons]
    have : {x | x ∈ (List.ofFn fun i => fun j => B i j) ++ Ls.flatten} = Set.range B.row ∪ {x | x ∈ Ls.flatten} := by
      ext x
      simp only [Set.mem_setOf_eq, List.mem_append, List.mem_ofFn, Set.mem_union]
      rfl
    rw [this, Submodule.span_union, hs, h2, iSup_cons]

theorem BezoutOps.Models.metaRowSum {n : Nat} {ms : List (Mat α)} {Ns : List (Submodule R (Fin n → R))}
    (hm : List.Forall₂ (fun m N => MetaBasis v m N) ms Ns) : ∃ mm, S.metaRowSum n ms = some mm ∧ MetaBasis v mm (⨆ N ∈ Ns, N) := by
  obtain ⟨Ls, h1, h2⟩ := forall₂_metaBasis hm
  obtain ⟨s, es, hs⟩ := Mat.joinRows_spec h1
  obtain ⟨res, mm, e1, e2, hB⟩ := h.hermiteTop hs
  rw [span_rowsMatrix, h2] at hB
  refine ⟨mm, ?_, hB⟩
  unfold BezoutOps.metaRowSum
  have : (ms.all fun m => m.cols == n) = true := by
    rw [List.all_eq_true]
    intro m hmem
    obtain ⟨N, -, hN⟩ := forall₂_mem hm hmem
    simpa using hN.cols
  simp only [this, assertThat, if_true, Option.bind_eq_bind, Option.bind_some, es, e1]
  exact e2

theorem BezoutOps.Models.latSum {r c : Nat} {lats : List (LinLat α)} {Ns : List (Submodule R (Matrix (Fin r) (Fin c) R))}
    (hl : List.Forall₂ (fun l N => LinLat.Denotes v l N) lats Ns) :
    ∃ lat, S.latSum r c lats = some lat ∧ lat.Denotes v (⨆ N ∈ Ns, N) := by
  have hm : List.Forall₂ (fun m N => MetaBasis v m N) (lats.map LinLat.metamatrix) (Ns.map fun N => N.map (flatL R r c).toLinearMap) := by
    rw [List.forall₂_map_left_iff, List.forall₂_map_right_iff]
    exact hl.imp fun l N h => (LinLat.denotes_iff.1 h).2.2
  obtain ⟨mm, e, hB⟩ := h.metaRowSum hm
  refine ⟨⟨mm, r, c⟩, ?_, ?_⟩
  · unfold BezoutOps.latSum
    have : (lats.all fun l => l.rows == r && l.cols == c) = true := by
      rw [List.all_eq_true]
      intro l hmem
      obtain ⟨N, -, hN⟩ := forall₂_mem hl hmem
      have := LinLat.denotes_iff.1 hN
      simp [this.1, this.2.1]
    simp only [this, assertThat, if_true, Option.bind_eq_bind, Option.bind_some, e]
  · rw [LinLat.denotes_iff]
    refine ⟨rfl, rfl, ?_⟩
    convert hB using 1
    clear hm hB hl e
    induction Ns with
    | nil => simp
    | cons N Ns ih => rw [List.map_cons, iSup_cons, iSup_cons, Submodule.map_sup, ih]

theorem BezoutOps.Models.metaIntersectOrdered {k1 k2 n : Nat} {m1 m2 : Mat α} {B1 : Matrix (Fin k1) (Fin n) R} {B2 : Matrix (Fin k2) (Fin n) R}
    (h1 : m1.Denotes v B1) (h2 : m2.Denotes v B2) (hi1 : LinearIndependent R B1.row) (hi2 : LinearIndependent R B2.row) :
    ∃ mm, S.metaIntersectOrdered n m1 m2 = some mm ∧
      MetaBasis v mm (Submodule.span R (Set.range B1.row) ⊓ Submodule.span R (Set.range B2.row)) := by
  have hD := h.toGcd.toFav.toDomain
  have hS := hD.toRing.toSemi
  obtain ⟨neg, en, hn⟩ := hD.toRing.matNeg h2
  obtain ⟨J, ej, hJ⟩ := Mat.joinRows_two h1 hn
  obtain ⟨ker, k, K, ek, hK, hker⟩ := h.rowKernel hJ
  have hmulJ : ∀ X : Matrix (Fin 1) (Fin (k1 + k2)) R, X * (Matrix.of (Fin.append B1.row (-B2).row)) = 0 ↔
      Matrix.vecMul (fun i => X 0 (Fin.castAdd k2 i)) B1 = Matrix.vecMul (fun i => X 0 (Fin.natAdd k1 i)) B2 := by
    intro X
    have : Matrix.vecMul ((rowL R (k1 + k2)).symm X) (Matrix.of (Fin.append B1.row (-B2).row)) =
        Matrix.vecMul (fun i => X 0 (Fin.castAdd k2 i)) B1 - Matrix.vecMul (fun i => X 0 (Fin.natAdd k1 i)) B2 := by
      rw [Matrix.vecMul_eq_sum, Fin.sum_univ_add, Matrix.vecMul_eq_sum, Matrix.vecMul_eq_sum, sub_eq_add_neg, ← Finset.sum_neg_distrib]
      congr 1
      · refine Finset.sum_congr rfl fun i _ => ?_
        have : (Matrix.of (Fin.append B1.row (-B2).row)) (Fin.castAdd k2 i) = B1 i := Fin.append_left B1.row (-B2).row i
        rw [this]; rfl
      · refine Finset.sum_congr rfl fun i _ => ?_
        have : (Matrix.of (Fin.append B1.row (-B2).row)) (Fin.natAdd k1 i) = -B2 i := Fin.append_right B1.row (-B2).row i
        rw [this, smul_neg]; rfl
    rw [rowL_mul, this, sub_eq_zero]
  -- the projection
  let φ : Matrix (Fin 1) (Fin (k1 + k2)) R →ₗ[R] (Fin n → R) :=
    { toFun := fun X => Matrix.vecMul (fun i => X 0 (Fin.castAdd k2 i)) B1
      map_add' := fun X Y => Matrix.add_vecMul _ _ _
      map_smul' := fun a X => Matrix.smul_vecMul a (fun i => X 0 (Fin.castAdd k2 i)) B1 }
  rw [← Matrix.vecMul_injective_iff] at hi1 hi2
  have hinj : Set.InjOn φ (Submodule.span R (Set.range K)) := by
    intro X hX Y hY hXY
    rw [SetLike.mem_coe, hker, hmulJ] at hX hY
    have e1 : (fun i => X 0 (Fin.castAdd k2 i)) = fun i => Y 0 (Fin.castAdd k2 i) := hi1 hXY
    have e2 : (fun i => X 0 (Fin.natAdd k1 i)) = fun i => Y 0 (Fin.natAdd k1 i) := hi2 (by
      change Matrix.vecMul _ B2 = Matrix.vecMul _ B2
      rw [← hX, ← hY]; exact hXY)
    ext i j
    rw [Subsingleton.elim i 0]
    refine Fin.addCases (fun j => ?_) (fun j => ?_) j
    · exact congrFun e1 j
    · exact congrFun e2 j
  have hrow : ∀ i : Fin k, ∃ m, S.intersectRow m1 ker i = some m ∧ m.Denotes v (rowL R n (φ (K i))) := by
    intro i
    obtain ⟨b, eb, hb⟩ := hK.basisMatrix i
    obtain ⟨x, ex, hx⟩ := hb.submatrix [0] (List.range m1.rows) (r' := 1) (c' := k1) rfl (by simp [h1.rows]) (fun _ => 0) (Fin.castAdd k2)
      (by intro i; rw [Subsingleton.elim i 0]; rfl) (by intro i; simp [h1.rows])
    obtain ⟨s, es, hs⟩ := hS.matMulUnwrap hx h1
    refine ⟨s, ?_, hs.congr rfl rfl ?_⟩
    · unfold BezoutOps.intersectRow
      simp only [eb, ex, Option.bind_eq_bind, Option.bind_some]
      exact es
    · intro i' j
      rfl
  obtain ⟨rows, er, hl, hrows⟩ := MatsDenote.mapM hrow
  have hF : List.Forall₂ (fun m L => m.Denotes v (rowsMatrix L)) rows (List.ofFn fun i => [φ (K i)]) := by
    rw [List.forall₂_iff_get]
    refine ⟨by simpa using hl, ?_⟩
    intro i hi1 hi2
    have hik : i < k := by omega
    obtain ⟨m, em, hm⟩ := hrows ⟨i, hik⟩
    rw [List.getElem?_eq_getElem hi1] at em
    cases em
    have e : (List.ofFn fun i => [φ (K i)])[i] = [φ (K ⟨i, hik⟩)] := List.getElem_ofFn hi2
    rw [List.get_eq_getElem, List.get_eq_getElem, e]
    exact hm.congr rfl rfl (by intro a b; rw [Fin.fin_one_eq_zero (Fin.cast _ a), Fin.fin_one_eq_zero a]; rfl)
  obtain ⟨s, es, hs⟩ := Mat.joinRows_spec hF
  have hfl : (List.ofFn fun i => [φ (K i)]).flatten = List.ofFn fun i => φ (K i) := by
    rw [List.ofFn_eq_map, List.ofFn_eq_map]
    generalize List.finRange k = l
    induction l with
    | nil => rfl
    | cons i l ih => rw [List.map_cons, List.flatten_cons, ih]; rfl
  rw [hfl] at hs
  refine ⟨s, ?_, k, Matrix.of fun i => φ (K i), hs.congr (by simp) rfl (by intro i j; simp [rowsMatrix]), ?_, ?_⟩
  · unfold BezoutOps.metaIntersectOrdered
    simp only [en, ej, ek, hK.rank, er, Option.bind_eq_bind, Option.bind_some]
    exact es
  · exact hK.indep.map_injOn φ hinj
  · have e : Set.range (Matrix.of fun i => φ (K i)).row = φ '' Set.range K := by
      rw [← Set.range_comp]; rfl
    rw [e, ← Submodule.map_span]
    ext x
    rw [Submodule.mem_map, Submodule.mem_inf, mem_span_rows, mem_span_rows]
    constructor
    · rintro ⟨X, hX, rfl⟩
      rw [hker, hmulJ] at hX
      exact ⟨⟨_, rfl⟩, ⟨_, hX.symm⟩⟩
    · rintro ⟨⟨y1, hy1⟩, ⟨y2, hy2⟩⟩
      refine ⟨rowL R _ (Fin.append y1 y2), ?_, ?_⟩
      · rw [hker, hmulJ]
        have e1 : (fun i => rowL R (k1 + k2) (Fin.append y1 y2) 0 (Fin.castAdd k2 i)) = y1 := by
          funext i; exact Fin.append_left y1 y2 i
        have e2 : (fun i => rowL R (k1 + k2) (Fin.append y1 y2) 0 (Fin.natAdd k1 i)) = y2 := by
          funext i; exact Fin.append_right y1 y2 i
        rw [e1, e2, hy1, hy2]
      · change Matrix.vecMul _ B1 = x
        have e1 : (fun i => rowL R (k1 + k2) (Fin.append y1 y2) 0 (Fin.castAdd k2 i)) = y1 := by
          funext i; exact Fin.append_left y1 y2 i
        rw [e1, hy1]

theorem BezoutOps.Models.assertIndep {m : Mat α} {n : Nat} {N : Submodule R (Fin n → R)} (hm : MetaBasis v m N) : S.assertIndep m = some () := by
  obtain ⟨k, B, hB, hi, -⟩ := hm
  obtain ⟨k', e, -, hk⟩ := h.matRank_rows hB
  unfold BezoutOps.assertIndep
  rw [e, hB.rows]
  simp [assertThat, hk.2 hi]

theorem BezoutOps.Models.metaRowIntersection {n : Nat} {m1 m2 : Mat α} {N1 N2 : Submodule R (Fin n → R)} (h1 : MetaBasis v m1 N1)
    (h2 : MetaBasis v m2 N2) : ∃ mm, S.metaRowIntersection n m1 m2 = some mm ∧ MetaBasis v mm (N1 ⊓ N2) := by
  unfold BezoutOps.metaRowIntersection
  rw [h.assertIndep h1, h.assertIndep h2, h1.cols, h2.cols]
  simp only [assertThat, beq_self_eq_true, if_true, Option.bind_eq_bind, Option.bind_some]
  obtain ⟨k1, B1, hB1, hi1, rfl⟩ := h1
  obtain ⟨k2, B2, hB2, hi2, rfl⟩ := h2
  split
  · rw [inf_comm]
    exact h.metaIntersectOrdered hB2 hB1 hi2 hi1
  · exact h.metaIntersectOrdered hB1 hB2 hi1 hi2

theorem BezoutOps.Models.latIntersectPair {a b : LinLat α} {r c : Nat} {N N' : Submodule R (Matrix (Fin r) (Fin c) R)} (ha : a.Denotes v N)
    (hb : b.Denotes v N') : ∃ lat, S.latIntersectPair r c a b = some lat ∧ lat.Denotes v (N ⊓ N') := by
  obtain ⟨hr, hc, hA⟩ := LinLat.denotes_iff.1 ha
  obtain ⟨hr', hc', hA'⟩ := LinLat.denotes_iff.1 hb
  obtain ⟨mm, e, hB⟩ := h.metaRowIntersection hA hA'
  rw [← Submodule.map_inf _ (flatL R r c).injective] at hB
  refine ⟨⟨mm, r, c⟩, ?_, LinLat.denotes_iff.2 ⟨rfl, rfl, hB⟩⟩
  unfold BezoutOps.latIntersectPair
  rw [hr, hc, hr', hc']
  simp only [assertThat, beq_self_eq_true, if_true, Option.bind_eq_bind, Option.bind_some, e]
  obtain ⟨k, B, hd, hi, -⟩ := hB
  exact h.latChecked hd rfl hi

theorem BezoutOps.Models.latIntersect {r c : Nat} {lats : List (LinLat α)} {Ns : List (Submodule R (Matrix (Fin r) (Fin c) R))}
    (hl : List.Forall₂ (fun l N => LinLat.Denotes v l N) lats Ns) :
    ∃ lat, S.latIntersect r c lats = some lat ∧ lat.Denotes v (⨅ N ∈ Ns, N) := by
  have hS := h.toGcd.toFav.toDomain.toRing.toSemi
  unfold BezoutOps.latIntersect
  cases hl with
  | nil =>
    obtain ⟨m, e, hm⟩ := hS.matIdent (r * c)
    refine ⟨⟨m, r, c⟩, by simp [e], LinLat.denotes_iff.2 ⟨rfl, rfl, r * c, 1, hm, ?_, ?_⟩⟩
    · rw [← Matrix.vecMul_injective_iff]
      intro x y hxy
      simpa using hxy
    · have hT : (⨅ N ∈ ([] : List (Submodule R (Matrix (Fin r) (Fin c) R))), N) = ⊤ := by simp
      rw [hT, Submodule.map_top, LinearEquiv.range, eq_top_iff]
      intro x _
      rw [mem_span_rows]
      exact ⟨x, Matrix.vecMul_one x⟩
  | cons hA hrest =>
    cases hrest with
    | nil => exact ⟨_, rfl, by simpa using hA⟩
    | cons hB hrest =>
      obtain ⟨l, e, hl⟩ := h.latIntersectPair hA hB
      simp only [e, Option.bind_some]
      rename_i _ _ _ _ lats Ns
      suffices hs : ∀ (l : LinLat α) (M : Submodule R (Matrix (Fin r) (Fin c) R)), l.Denotes v M →
          ∃ lat, lats.foldlM (S.latIntersectPair r c) l = some lat ∧ lat.Denotes v (M ⊓ ⨅ N ∈ Ns, N) by
        obtain ⟨lat, e', hlat⟩ := hs l _ hl
        refine ⟨lat, e', ?_⟩
        convert hlat using 1
        rw [iInf_cons, iInf_cons, inf_assoc]
      clear hl e l hA hB
      induction hrest with
      | nil => intro l M hM; exact ⟨l, rfl, by simpa using hM⟩
      | cons hC _ ih =>
        intro l M hM
        obtain ⟨l1, e1, h1⟩ := h.latIntersectPair hM hC
        obtain ⟨l2, e2, h2⟩ := ih l1 _ h1
        refine ⟨l2, ?_, ?_⟩
        · rw [List.foldlM_cons, e1]; exact e2
        · convert h2 using 1
          rw [iInf_cons, inf_assoc]

theorem BezoutOps.Models.rowSpan {r c : Nat} {m : Mat α} {A : Matrix (Fin r) (Fin c) R} (hm : m.Denotes v A) :
    ∃ lat, S.rowSpan m = some lat ∧ lat.Denotes v (Submodule.span R (Set.range fun i => rowL R c (A i))) := by
  obtain ⟨mats, e, hmats⟩ := MatsDenote.mapM (v := v) (k := r) (B := fun i => rowL R c (A i))
    (f := fun i => m.submatrix [i] (List.range m.cols)) (by
      intro n
      obtain ⟨m', e', hm'⟩ := hm.submatrix [(n : Nat)] (List.range m.cols) (r' := 1) (c' := c) rfl (by simp [hm.cols]) (fun _ => n) id
        (by intro i; rw [Subsingleton.elim i 0]; rfl) (by intro i; simp [hm.cols])
      exact ⟨m', e', hm'⟩)
  obtain ⟨lat, el, hlat⟩ := h.latFromSpan hmats
  refine ⟨lat, ?_, hlat⟩
  unfold BezoutOps.rowSpan
  rw [hm.rows, e]
  rw [hm.cols]
  exact el

theorem BezoutOps.Models.colSpan {r c : Nat} {m : Mat α} {A : Matrix (Fin r) (Fin c) R} (hm : m.Denotes v A) :
    ∃ lat, S.colSpan m = some lat ∧ lat.Denotes v (Submodule.span R (Set.range fun j => colL R r (fun i => A i j))) := by
  obtain ⟨mats, e, hmats⟩ := MatsDenote.mapM (v := v) (k := c) (B := fun j => colL R r (fun i => A i j))
    (f := fun j => m.submatrix (List.range m.rows) [j]) (by
      intro n
      obtain ⟨m', e', hm'⟩ := hm.submatrix (List.range m.rows) [(n : Nat)] (r' := r) (c' := 1) (by simp [hm.rows]) rfl id (fun _ => n)
        (by intro i; simp [hm.rows]) (by intro i; rw [Subsingleton.elim i 0]; rfl)
      exact ⟨m', e', hm'⟩)
  obtain ⟨lat, el, hlat⟩ := h.latFromSpan hmats
  refine ⟨lat, ?_, hlat⟩
  unfold BezoutOps.colSpan
  rw [hm.cols, e]
  rw [hm.rows]
  exact el

end

end Verif.Rings
