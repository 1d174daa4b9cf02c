import Verif.Proofs.LatticeBase

/-! # Kernels and linear systems -/

namespace Verif.Rings

section Rows
variable {R : Type} [CommRing R]

/-- A vector as a matrix with one row. -/
def rowL (R : Type) [CommRing R] (n : Nat) : (Fin n → R) ≃ₗ[R] Matrix (Fin 1) (Fin n) R where
  toFun x := Matrix.of fun _ j => x j
  invFun A := fun j => A 0 j
  map_add' _ _ := rfl
  map_smul' _ _ := rfl
  left_inv _ := rfl
  right_inv A := by ext i j; rw [Subsingleton.elim i 0]; rfl

/-- A vector as a matrix with one column. -/
def colL (R : Type) [CommRing R] (n : Nat) : (Fin n → R) ≃ₗ[R] Matrix (Fin n) (Fin 1) R where
  toFun x := Matrix.of fun i _ => x i
  invFun A := fun i => A i 0
  map_add' _ _ := rfl
  map_smul' _ _ := rfl
  left_inv _ := rfl
  right_inv A := by ext i j; rw [Subsingleton.elim j 0]; rfl

theorem rowL_mul {n c : Nat} (X : Matrix (Fin 1) (Fin n) R) (A : Matrix (Fin n) (Fin c) R) :
    X * A = 0 ↔ Matrix.vecMul ((rowL R n).symm X) A = 0 := by
  constructor
  · intro h
    funext j
    exact congrFun (congrFun h 0) j
  · intro h
    ext i j
    rw [Subsingleton.elim i 0]
    exact congrFun h j

theorem colL_mul {n r : Nat} (X : Matrix (Fin n) (Fin 1) R) (A : Matrix (Fin r) (Fin n) R) :
    A * X = 0 ↔ Matrix.vecMul ((colL R n).symm X) A.transpose = 0 := by
  rw [Matrix.vecMul_transpose]
  constructor
  · intro h
    funext j
    exact congrFun (congrFun h j) 0
  · intro h
    ext i j
    rw [Subsingleton.elim j 0]
    exact congrFun h i

end Rows

section Basis
variable {α R : Type} [CommRing R] {v : α → R} {lat : LinLat α} {k r c : Nat} {B : Fin k → Matrix (Fin r) (Fin c) R}

theorem LinLat.HasBasis.rank (hB : lat.HasBasis v B) : lat.rank = k := hB.denotes.rows

theorem LinLat.HasBasis.basisElement (hB : lat.HasBasis v B) (n : Fin k) (i : Fin r) (j : Fin c) :
    ∃ x, lat.basisElement n i j = some x ∧ v x = B n i j := by
  unfold LinLat.basisElement
  rw [hB.rows, hB.cols, latIdx_ok i.2 j.2, Option.bind_some]
  obtain ⟨x, hx, hv⟩ := hB.denotes.get n (finProdFinEquiv (i, j))
  refine ⟨x, ?_, ?_⟩
  · rw [← hx]
    congr 1
    simp [Nat.mul_comm]
  · rw [hv]
    exact congrFun (congrFun ((flatL R r c).symm_apply_apply (B n)) i) j

theorem LinLat.HasBasis.basisMatrix (hB : lat.HasBasis v B) (n : Fin k) : ∃ m, lat.basisMatrix n = some m ∧ m.Denotes v (B n) := by
  unfold LinLat.basisMatrix
  rw [if_neg (by rw [hB.rank]; have := n.2; omega), hB.rows, hB.cols]
  exact Mat.construct_denotes fun i j => hB.basisElement n i j

theorem LinLat.HasBasis.basisRow (hB : lat.HasBasis v B) (n : Fin k) :
    ∃ m, lat.basisRow n = some m ∧ m.Denotes v (rowL R _ (flatL R r c (B n))) := by
  unfold LinLat.basisRow
  obtain ⟨m, e, hm⟩ := hB.denotes.submatrix [(n : Nat)] (List.range lat.metamatrix.cols) (r' := 1) (c' := r * c) rfl
    (by simp [hB.denotes.cols]) (fun _ => n) id (by intro i; rw [Subsingleton.elim i 0]; rfl) (by intro i; simp [hB.denotes.cols])
  exact ⟨m, e, hm⟩

theorem LinLat.HasBasis.basisMatrices (hB : lat.HasBasis v B) : ∃ ms, lat.basisMatrices = some ms ∧ MatsDenote v ms B := by
  unfold LinLat.basisMatrices
  rw [hB.rank]
  exact MatsDenote.mapM hB.basisMatrix

end Basis

section Bez
variable {α R : Type} [CommRing R] {S : BezoutOps α} {v : α → R} (h : S.Models v)
include h

theorem BezoutOps.Models.rowKernel {r c : Nat} {m : Mat α} {A : Matrix (Fin r) (Fin c) R} (hm : m.Denotes v A) :
    ∃ lat k, ∃ B : Fin k → Matrix (Fin 1) (Fin r) R, S.rowKernel m = some lat ∧ lat.HasBasis v B ∧
      ∀ X, X ∈ Submodule.span R (Set.range B) ↔ X * A = 0 := by
  obtain ⟨res, U, k, f, e, hU, hk, hf, hi, hs⟩ := h.hermiteKernel hm
  obtain ⟨mats, em, hmats⟩ := MatsDenote.mapM_from (v := v) (a := res.pivs.length) (b := res.u.rows) (k := k)
    (B := fun n => rowL R r (U (f n))) (f := fun i => res.u.submatrix [i] (List.range res.u.cols)) (by rw [hU.rows, hk]) (by
      intro n
      obtain ⟨m', e', hm'⟩ := hU.submatrix [res.pivs.length + n] (List.range res.u.cols) (r' := 1) (c' := r) rfl
        (by simp [hU.cols]) (fun _ => f n) id (by intro i; rw [Subsingleton.elim i 0, hf n]; rfl) (by intro i; simp [hU.cols])
      exact ⟨m', e', hm'⟩)
  obtain ⟨lat, el, hB⟩ := h.latFromBasis hmats (hi.map' (rowL R r).toLinearMap (LinearEquiv.ker _))
  refine ⟨lat, k, _, ?_, hB, ?_⟩
  · unfold BezoutOps.rowKernel
    rw [e, Option.bind_eq_bind, Option.bind_some, em, Option.bind_eq_bind, Option.bind_some, hU.cols]
    exact el
  · intro X
    rw [rowL_mul, ← hs]
    have : Set.range (fun n => rowL R r (U (f n))) = (rowL R r).toLinearMap '' (Set.range fun n => U (f n)) := by
      rw [← Set.range_comp]; rfl
    rw [this, ← Submodule.map_span, Submodule.mem_map_equiv]

theorem BezoutOps.Models.colKernel {r c : Nat} {m : Mat α} {A : Matrix (Fin r) (Fin c) R} (hm : m.Denotes v A) :
    ∃ lat k, ∃ B : Fin k → Matrix (Fin c) (Fin 1) R, S.colKernel m = some lat ∧ lat.HasBasis v B ∧
      ∀ X, X ∈ Submodule.span R (Set.range B) ↔ A * X = 0 := by
  obtain ⟨res, U, k, f, e, hU, hk, hf, hi, hs⟩ := h.hermiteKernel hm.transposed
  have hUt := hU.transposed
  obtain ⟨mats, em, hmats⟩ := MatsDenote.mapM_from (v := v) (a := res.pivs.length) (b := res.u.transposed.cols) (k := k)
    (B := fun n => colL R c (U (f n))) (f := fun i => res.u.transposed.submatrix (List.range res.u.transposed.rows) [i])
    (by rw [hUt.cols, hk]) (by
      intro n
      obtain ⟨m', e', hm'⟩ := hUt.submatrix (List.range res.u.transposed.rows) [res.pivs.length + n] (r' := c) (c' := 1) (by simp [hUt.rows])
        rfl id (fun _ => f n) (by intro i; simp [hUt.rows]) (by intro i; rw [Subsingleton.elim i 0, hf n]; rfl)
      exact ⟨m', e', hm'⟩)
  obtain ⟨lat, el, hB⟩ := h.latFromBasis hmats (hi.map' (colL R c).toLinearMap (LinearEquiv.ker _))
  refine ⟨lat, k, _, ?_, hB, ?_⟩
  · unfold BezoutOps.colKernel BezoutOps.colHermite
    rw [e]
    change ((rangeFrom res.pivs.length res.u.transposed.cols).mapM fun i =>
      res.u.transposed.submatrix (List.range res.u.transposed.rows) [i]).bind _ = _
    rw [em, Option.bind_some, hUt.rows]
    exact el
  · intro X
    rw [colL_mul, ← hs]
    have : Set.range (fun n => colL R c (U (f n))) = (colL R c).toLinearMap '' (Set.range fun n => U (f n)) := by
      rw [← Set.range_comp]; rfl
    rw [this, ← Submodule.map_span, Submodule.mem_map_equiv]

omit [CommRing R] h in
theorem mapM_vals {k : Nat} {f : Nat → Option α} {w : Fin k → R} {v : α → R} (hf : ∀ n : Fin k, ∃ x, f n = some x ∧ v x = w n) :
    ∃ l, (List.range k).mapM f = some l ∧ l.map v = List.ofFn w := by
  choose g hg1 hg2 using hf
  by_cases hk : k = 0
  · subst hk
    exact ⟨[], rfl, rfl⟩
  · have e := mapM_eq_map (List.range k) (f := f) (g := fun n => if hn : n < k then g ⟨n, hn⟩ else g ⟨0, by omega⟩) (by
      intro n hn
      rw [dif_pos (by simpa using hn)]
      exact hg1 ⟨n, by simpa using hn⟩)
    refine ⟨_, e, ?_⟩
    apply List.ext_getElem (by simp)
    intro n h1 h2
    have hn : n < k := by simpa using h1
    simp [hn, hg2]

theorem BezoutOps.Models.solveStep {k n : Nat} {ker : LinLat α} {B : Fin k → Matrix (Fin n) (Fin 1) R} (hB : ker.HasBasis v B) {taps : List α}
    {t : Fin k → R} (ht : ∀ i : Fin k, ∃ x, taps[(i : Nat)]? = some x ∧ v x = t i) {ext : Mat α} {E : Matrix (Fin n) (Fin 1) R}
    (hE : ext.Denotes v E) (i : Fin k) : ∃ ext', S.solveStep ker taps ext i = some ext' ∧ ext'.Denotes v (E + t i • B i) := by
  have hS := h.toGcd.toFav.toDomain.toRing.toSemi
  obtain ⟨b, eb, hb⟩ := hB.basisMatrix i
  obtain ⟨x, ex, hx⟩ := ht i
  obtain ⟨bt, ebt, hbt⟩ := hS.matMulScalar hb x
  obtain ⟨s, es, hs⟩ := hS.matAdd hE hbt
  refine ⟨s, ?_, ?_⟩
  · unfold BezoutOps.solveStep
    rw [eb, Option.bind_eq_bind, Option.bind_some, ex, Option.bind_eq_bind, Option.bind_some, ebt, Option.bind_some, es]
    rfl
  · refine hs.congr rfl rfl ?_
    intro a b'
    simp [hx, mul_comm]

theorem BezoutOps.Models.solveFold {k n : Nat} {ker : LinLat α} {B : Fin k → Matrix (Fin n) (Fin 1) R} (hB : ker.HasBasis v B) {taps : List α}
    {t : Fin k → R} (ht : ∀ i : Fin k, ∃ x, taps[(i : Nat)]? = some x ∧ v x = t i) {ext : Mat α} (hE : ext.Denotes v (0 : Matrix (Fin n) (Fin 1) R)) :
    ∃ ext', (List.range k).foldlM (S.solveStep ker taps) ext = some ext' ∧ ext'.Denotes v (∑ i, t i • B i) := by
  suffices hs : ∀ q (hq : q ≤ k), ∃ ext', (List.range q).foldlM (S.solveStep ker taps) ext = some ext' ∧
      ext'.Denotes v (∑ i : Fin q, t (Fin.castLE hq i) • B (Fin.castLE hq i)) by
    exact hs k le_rfl
  intro q
  induction q with
  | zero => intro _; exact ⟨ext, rfl, by simpa using hE⟩
  | succ q ih =>
    intro hq
    obtain ⟨e1, h1, h2⟩ := ih (by omega)
    obtain ⟨e2, h3, h4⟩ := h.solveStep hB ht h2 ⟨q, hq⟩
    refine ⟨e2, ?_, ?_⟩
    · rw [List.range_succ, List.foldlM_append, h1]
      change (List.foldlM (S.solveStep ker taps) e1 [q] : Option (Mat α)) = _
      rw [List.foldlM_cons, h3]
      rfl
    · rw [Fin.sum_univ_castSucc]
      exact h4

theorem BezoutOps.Models.unitIsOne {g : α} (hf : IsUnit (v g) → S.IsFav v (v g)) : S.unitIsOne g = some () := by
  unfold BezoutOps.unitIsOne
  have hD := h.toGcd.toFav.toDomain
  rw [hD.isUnit g]
  have h1 : IsUnit (v g) → S.equal g S.one = true := by
    intro hun
    rw [hD.toRing.toSemi.equal, hD.toRing.toSemi.one]
    obtain ⟨a, w, ea, -, -⟩ := h.toGcd.toFav.fav g
    rw [← hf hun g a w rfl ea]
    exact h.toGcd.toFav.fav_unit g a w hun ea
  simp [assertThat]
  exact h1

/-- The matrix of `col_solve`: `y` and then the columns of `m`. -/
theorem BezoutOps.Models.colSolve {r c : Nat} {m y : Mat α} {A : Matrix (Fin r) (Fin c) R} {Y : Matrix (Fin r) (Fin 1) R}
    (hm : m.Denotes v A) (hy : y.Denotes v Y) :
    (∃ x X, S.colSolve m y = some (some x) ∧ x.Denotes v X ∧ A * X = Y) ∨
      (S.colSolve m y = some none ∧ ¬ ∃ X : Matrix (Fin c) (Fin 1) R, A * X = Y) := by
  have hD := h.toGcd.toFav.toDomain
  have hS := hD.toRing.toSemi
  obtain ⟨ext, ee, hext⟩ : ∃ s, Mat.joinCols r [y, m] = some s ∧
      s.Denotes v (Matrix.of (Fin.append Y.transpose.row A.transpose.row)).transpose := by
    obtain ⟨s, e, hs⟩ := Mat.joinRows_two hy.transposed hm.transposed
    refine ⟨s.transposed, ?_, hs.transposed⟩
    unfold Mat.joinCols
    change (Mat.joinRows r [y.transposed, m.transposed]).map _ = _
    rw [e]; rfl
  set E : Matrix (Fin r) (Fin (1 + c)) R := (Matrix.of (Fin.append Y.transpose.row A.transpose.row)).transpose with hEdef
  have hmulE : ∀ (Z : Matrix (Fin (1 + c)) (Fin 1) R), E * Z = 0 ↔
      Z 0 0 • Y + A * (Matrix.of fun (j : Fin c) _ => Z (Fin.natAdd 1 j) 0) = 0 := by
    intro Z
    have : E * Z = Z 0 0 • Y + A * (Matrix.of fun (j : Fin c) _ => Z (Fin.natAdd 1 j) 0) := by
      ext i j
      rw [Subsingleton.elim j 0, Matrix.mul_apply, Fin.sum_univ_add]
      have h1 : E i (Fin.castAdd c 0) = Y i 0 := congrFun (Fin.append_left Y.transpose.row A.transpose.row 0) i
      have h2 : ∀ x, E i (Fin.natAdd 1 x) = A i x := fun x => congrFun (Fin.append_right Y.transpose.row A.transpose.row x) i
      have h3 : (Fin.castAdd c 0 : Fin (1 + c)) = 0 := rfl
      simp only [h1, h2, Fin.sum_univ_one, h3, Matrix.add_apply, Matrix.smul_apply, smul_eq_mul, Matrix.mul_apply, Matrix.of_apply]
      rw [show E i 0 = Y i 0 from h1, mul_comm (Y i 0)]
    rw [this]
  obtain ⟨ker, k, B, ek, hB, hker⟩ := h.colKernel hext
  obtain ⟨firsts, ef, hfirsts⟩ := mapM_vals (k := k) (v := v) (f := fun n => ker.basisElement n 0 0) (w := fun n => B n 0 0)
    (fun n => hB.basisElement n 0 0)
  obtain ⟨g, taps, eg, hlen, hcomb, hgcd, hfav⟩ := h.xgcdList firsts
  have hpre : S.colSolve m y = S.solveBranch m y ker g taps := by
    unfold BezoutOps.colSolve
    rw [hm.rows, hy.rows, hy.cols]
    simp only [assertThat, beq_self_eq_true, if_true, Option.bind_eq_bind, Option.bind_some, ee, ek, hB.rank, ef, eg, h.unitIsOne fun _ => hfav]
  have hfl : firsts.length = k := by have := congrArg List.length hfirsts; simpa using this
  rw [hpre]
  unfold BezoutOps.solveBranch
  by_cases hg : v g = 1
  · left
    rw [if_pos ((hS.equal _ _).2 (by rw [hg, hS.one]))]
    have htap : ∀ i : Fin k, ∃ x, taps[(i : Nat)]? = some x ∧ v x = v (taps[(i : Nat)]'(by omega)) :=
      fun i => ⟨_, List.getElem?_eq_getElem (by omega), rfl⟩
    obtain ⟨z, ez, hz⟩ := hS.matZero (c + 1) 1
    have hz' : z.Denotes v (0 : Matrix (Fin (1 + c)) (Fin 1) R) := hz.congr (by omega) rfl (by intro i j; rfl)
    obtain ⟨ans, ea, ha⟩ := h.solveFold hB htap hz'
    set Z : Matrix (Fin (1 + c)) (Fin 1) R := ∑ i : Fin k, v (taps[(i : Nat)]'(by omega)) • B i with hZ
    have hZ0 : Z 0 0 = 1 := by
      rw [← hg, hcomb, hZ, Matrix.sum_apply]
      have : List.zipWith (fun c x => v c * v x) taps firsts = List.ofFn fun i : Fin k => v (taps[(i : Nat)]'(by omega)) * B i 0 0 := by
        apply List.ext_getElem (by simp; omega)
        intro n h1 h2
        have hn : n < k := by simpa using h2
        have hb : (firsts.map v)[n]'(by simp; omega) = B ⟨n, hn⟩ 0 0 := by simp only [hfirsts]; simp
        simp at hb
        simp [hb]
      rw [this, List.sum_ofFn]
      rfl
    have hZker : E * Z = 0 := (hker Z).1 (Submodule.sum_mem _ fun i _ => Submodule.smul_mem _ _ (Submodule.subset_span ⟨i, rfl⟩))
    rw [hmulE, hZ0, one_smul] at hZker
    obtain ⟨e0, he0, hve0⟩ := ha.get 0 0
    obtain ⟨tail, et, htail⟩ := ha.submatrix (rangeFrom 1 ans.rows) [0] (r' := c) (c' := 1) (by simp [rangeFrom, ha.rows]) rfl
      (Fin.natAdd 1) (fun _ => 0) (by intro i; simp [rangeFrom, ha.rows]) (by intro i; rw [Subsingleton.elim i 0]; rfl)
    obtain ⟨x, ex, hx⟩ := hD.toRing.matNeg htail
    obtain ⟨mx, emx, hmx⟩ := hS.matMulUnwrap hm hx
    have hsol : A * -(Z.submatrix (Fin.natAdd 1) fun _ => 0) = Y := by
      rw [Matrix.mul_neg, neg_eq_iff_add_eq_zero, add_comm]
      exact hZker
    obtain ⟨q, eq, hq⟩ := hS.matEqual hmx hy
    refine ⟨x, _, ?_, hx, hsol⟩
    unfold BezoutOps.solveFound
    have e0' : S.equal e0 S.one = true := (hS.equal _ _).2 (by rw [hve0, hS.one]; exact hZ0)
    have hq' : q = true := hq.2 hsol
    have he0' : ans.get 0 0 = some e0 := he0
    simp only [assertThat, if_true, Option.bind_eq_bind, Option.bind_some, hm.cols, ez, hB.rank, ea, he0', e0', et, ex, emx, eq, hq', Option.map_some]
  · right
    rw [if_neg (fun hc => hg (by rw [(hS.equal _ _).1 hc, hS.one]))]
    refine ⟨rfl, ?_⟩
    rintro ⟨X, hX⟩
    apply hg
    have hZ : E * (Matrix.of fun (i : Fin (1 + c)) (_ : Fin 1) => Fin.append (fun _ : Fin 1 => (1 : R)) (fun j => -X j 0) i) = 0 := by
      rw [hmulE]
      have : (Matrix.of fun (j : Fin c) (_ : Fin 1) => (Matrix.of fun (i : Fin (1 + c)) (_ : Fin 1) =>
          Fin.append (fun _ : Fin 1 => (1 : R)) (fun j => -X j 0) i) (Fin.natAdd 1 j) (0 : Fin 1)) = -X := by
        ext i j
        rw [Subsingleton.elim j 0]
        simp
      rw [this, Matrix.mul_neg, hX]
      have : (Matrix.of fun (i : Fin (1 + c)) (_ : Fin 1) => Fin.append (fun _ : Fin 1 => (1 : R)) (fun j => -X j 0) i) 0 0 = 1 :=
        Fin.append_left (fun _ : Fin 1 => (1 : R)) (fun j => -X j 0) 0
      rw [this, one_smul, add_neg_cancel]
    rw [← hker] at hZ
    have hdvd : ∀ W ∈ Submodule.span R (Set.range B), v g ∣ W 0 0 := by
      intro W hW
      induction hW using Submodule.span_induction with
      | mem W hW =>
        obtain ⟨n, rfl⟩ := hW
        apply hgcd.1
        change B n 0 0 ∈ firsts.map v
        rw [hfirsts]
        exact List.mem_ofFn.2 ⟨n, rfl⟩
      | zero => exact dvd_zero _
      | add W W' _ _ h1 h2 => exact dvd_add h1 h2
      | smul a W _ h1 => exact Dvd.dvd.mul_left h1 a
    have h1 := hdvd _ hZ
    have h2 : (Matrix.of fun (i : Fin (1 + c)) (_ : Fin 1) => Fin.append (fun _ : Fin 1 => (1 : R)) (fun j => -X j 0) i) 0 0 = 1 :=
      Fin.append_left (fun _ : Fin 1 => (1 : R)) (fun j => -X j 0) 0
    rw [h2] at h1
    obtain ⟨a, w, ea, -, -⟩ := h.toGcd.toFav.fav g
    rw [← hfav g a w rfl ea]
    exact h.toGcd.toFav.fav_unit g a w (isUnit_of_dvd_one h1) ea

theorem BezoutOps.Models.rowSolve {r c : Nat} {m y : Mat α} {A : Matrix (Fin r) (Fin c) R} {Y : Matrix (Fin 1) (Fin c) R}
    (hm : m.Denotes v A) (hy : y.Denotes v Y) :
    (∃ x X, S.rowSolve m y = some (some x) ∧ x.Denotes v X ∧ X * A = Y) ∨
      (S.rowSolve m y = some none ∧ ¬ ∃ X : Matrix (Fin 1) (Fin r) R, X * A = Y) := by
  unfold BezoutOps.rowSolve
  rcases h.colSolve hm.transposed hy.transposed with ⟨x, X, e, hx, hX⟩ | ⟨e, hno⟩
  · left
    refine ⟨x.transposed, X.transpose, by rw [e]; rfl, hx.transposed, ?_⟩
    rw [← Matrix.transpose_transpose Y, ← hX, Matrix.transpose_mul, Matrix.transpose_transpose]
  · right
    refine ⟨by rw [e]; rfl, ?_⟩
    rintro ⟨X, hX⟩
    exact hno ⟨X.transpose, by rw [← Matrix.transpose_mul, hX]⟩

end Bez

end Verif.Rings
