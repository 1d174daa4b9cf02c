import Verif.Proofs.MatrixStore
import Verif.Proofs.Structure
import Verif.Props.PermTable
import Mathlib.LinearAlgebra.Matrix.Trace

/-!
# The ring operations on matrices
-/

namespace Verif.Rings

theorem allM_some {ι : Type} (l : List ι) {p : ι → Option Bool} {P : ι → Prop} (hp : ∀ i ∈ l, ∃ b, p i = some b ∧ (b = true ↔ P i)) :
    ∃ b, l.allM p = some b ∧ (b = true ↔ ∀ i ∈ l, P i) := by
  induction l with
  | nil => exact ⟨true, rfl, by simp⟩
  | cons i l ih =>
    obtain ⟨b, hb, hbi⟩ := hp i (by simp)
    obtain ⟨b', hb', hbi'⟩ := ih fun j hj => hp j (by simp [hj])
    rw [List.allM, hb]
    cases b with
    | true => exact ⟨b', hb', by rw [hbi']; simp [← hbi]⟩
    | false => exact ⟨false, rfl, by simp [← hbi]⟩

theorem anyM_some {ι : Type} (l : List ι) {p : ι → Option Bool} {P : ι → Prop} (hp : ∀ i ∈ l, ∃ b, p i = some b ∧ (b = true ↔ P i)) :
    ∃ b, l.anyM p = some b ∧ (b = true ↔ ∃ i ∈ l, P i) := by
  induction l with
  | nil => exact ⟨false, rfl, by simp⟩
  | cons i l ih =>
    obtain ⟨b, hb, hbi⟩ := hp i (by simp)
    obtain ⟨b', hb', hbi'⟩ := ih fun j hj => hp j (by simp [hj])
    rw [List.anyM, hb]
    cases b with
    | false => exact ⟨b', hb', by rw [hbi']; simp [← hbi]⟩
    | true => exact ⟨true, rfl, by simp [← hbi]⟩

theorem foldlM_some {ι β : Type} (l : List ι) {step : β → ι → Option β} {F : β → ι → β} (hs : ∀ b, ∀ i ∈ l, step b i = some (F b i))
    (b : β) : l.foldlM step b = some (l.foldl F b) := by
  induction l generalizing b with
  | nil => rfl
  | cons i l ih => rw [List.foldlM_cons, hs b i (by simp)]; exact ih (fun b j hj => hs b j (by simp [hj])) _

theorem foldl_cell {β ι : Type} (L : List ι) (G : ι → β → β) (q : Nat → Nat → β) (i j i' j' : Nat) :
    L.foldl (fun q l i' j' => if i' = i ∧ j' = j then G l (q i j) else q i' j') q i' j' =
      if i' = i ∧ j' = j then L.foldl (fun z l => G l z) (q i j) else q i' j' := by
  induction L generalizing q with
  | nil => split
           · rename_i hij; rw [hij.1, hij.2]; rfl
           · rfl
  | cons l L ih =>
    rw [List.foldl_cons, ih]
    by_cases hij : i' = i ∧ j' = j <;> simp [hij]

theorem sum_range_fin {M : Type} [AddCommMonoid M] (n : Nat) (g : Nat → M) : ((List.range n).map g).sum = ∑ i : Fin n, g i := by
  rw [← Finset.sum_range]
  induction n with
  | zero => simp
  | succ n ih => rw [Finset.sum_range_succ, List.range_succ, List.map_append, List.sum_append, ih]; simp

theorem prod_range_fin {M : Type} [CommMonoid M] (n : Nat) (g : Nat → M) : ((List.range n).map g).prod = ∏ i : Fin n, g i := by
  rw [← Finset.prod_range]
  induction n with
  | zero => simp
  | succ n ih => rw [Finset.prod_range_succ, List.range_succ, List.map_append, List.prod_append, ih]; simp

section
variable {α R : Type}

theorem Mat.Denotes.transposed {v : α → R} {m : Mat α} {r c : Nat} {A : Matrix (Fin r) (Fin c) R} (h : m.Denotes v A) :
    m.transposed.Denotes v A.transpose := by
  refine ⟨?_, ?_, h.length, ?_⟩
  · rw [← h.cols]; unfold Mat.transposed Mat.rows Mat.cols; cases m.transpose <;> rfl
  · rw [← h.rows]; unfold Mat.transposed Mat.rows Mat.cols; cases m.transpose <;> rfl
  · intro i j
    obtain ⟨x, hx, hv⟩ := h.entry j i
    obtain ⟨f, hf, -⟩ := (Mat.denotes_iff x).1 h
    have h1 := hf.transposed.get i j i.2 j.2
    have h2 := hf.get j i j.2 i.2
    rw [(m.get_some_iff).2 hx] at h2
    cases h2
    exact ⟨_, (Mat.get_some_iff _).1 h1, hv⟩

theorem Mat.transposed_transposed (m : Mat α) : m.transposed.transposed = m := by
  cases m with
  | mk a b t f g e => cases t <;> rfl

theorem Mat.Denotes.rowsFlipped {v : α → R} {m : Mat α} {r c : Nat} {A : Matrix (Fin r) (Fin c) R} (h : m.Denotes v A) :
    m.rowsFlipped.Denotes v (A.submatrix Fin.rev id) := by
  refine ⟨h.rows, h.cols, h.length, ?_⟩
  intro i j
  obtain ⟨x, hx, hv⟩ := h.entry i.rev j
  obtain ⟨f, hf, -⟩ := (Mat.denotes_iff x).1 h
  have h1 := hf.rowsFlipped.get i j i.2 j.2
  have h2 := hf.get i.rev j i.rev.2 j.2
  rw [(m.get_some_iff).2 hx] at h2
  rw [Fin.val_rev] at h2
  have e : r - 1 - (i : Nat) = r - (i + 1) := by omega
  rw [e, ← h2] at h1
  exact ⟨_, (Mat.get_some_iff _).1 h1, hv⟩

theorem Mat.Denotes.colsFlipped {v : α → R} {m : Mat α} {r c : Nat} {A : Matrix (Fin r) (Fin c) R} (h : m.Denotes v A) :
    m.colsFlipped.Denotes v (A.submatrix id Fin.rev) := by
  refine ⟨h.rows, h.cols, h.length, ?_⟩
  intro i j
  obtain ⟨x, hx, hv⟩ := h.entry i j.rev
  obtain ⟨f, hf, -⟩ := (Mat.denotes_iff x).1 h
  have h1 := hf.colsFlipped.get i j i.2 j.2
  have h2 := hf.get i j.rev i.2 j.rev.2
  rw [(m.get_some_iff).2 hx] at h2
  rw [Fin.val_rev] at h2
  have e : c - 1 - (j : Nat) = c - (j + 1) := by omega
  rw [e, ← h2] at h1
  exact ⟨_, (Mat.get_some_iff _).1 h1, hv⟩

theorem Mat.Denotes.applyMap {β T : Type} {v : α → R} {w : β → T} {m : Mat α} {r c : Nat} {A : Matrix (Fin r) (Fin c) R}
    (h : m.Denotes v A) (g : α → β) (φ : R → T) (hg : ∀ x, w (g x) = φ (v x)) : (m.applyMap g).Denotes w (A.map φ) := by
  refine ⟨h.rows, h.cols, by unfold Mat.applyMap; simpa using h.length, ?_⟩
  intro i j
  obtain ⟨x, hx, hv⟩ := h.entry i j
  obtain ⟨f, hf, -⟩ := (Mat.denotes_iff x).1 h
  have h1 := (hf.applyMap g).get i j i.2 j.2
  have h2 := hf.get i j i.2 j.2
  rw [(m.get_some_iff).2 hx] at h2
  cases h2
  exact ⟨_, (Mat.get_some_iff _).1 h1, by rw [hg, hv]; rfl⟩

theorem Mat.Denotes.submatrix {v : α → R} {m : Mat α} {r c : Nat} {A : Matrix (Fin r) (Fin c) R} (h : m.Denotes v A)
    (rs cs : List Nat) {r' c' : Nat} (hr : rs.length = r') (hc : cs.length = c') (fr : Fin r' → Fin r) (fc : Fin c' → Fin c)
    (hfr : ∀ i : Fin r', rs[(i : Nat)]? = some (fr i : Nat)) (hfc : ∀ i : Fin c', cs[(i : Nat)]? = some (fc i : Nat)) :
    ∃ m', m.submatrix rs cs = some m' ∧ m'.Denotes v (A.submatrix fr fc) := by
  subst hr hc
  have hr' : ∀ x ∈ rs, x < r := by
    intro x hx
    obtain ⟨i, hi, rfl⟩ := List.getElem_of_mem hx
    have := hfr ⟨i, hi⟩
    rw [List.getElem?_eq_getElem hi, Option.some_inj] at this
    exact lt_of_eq_of_lt this (fr ⟨i, hi⟩).2
  have hc' : ∀ x ∈ cs, x < c := by
    intro x hx
    obtain ⟨i, hi, rfl⟩ := List.getElem_of_mem hx
    have := hfc ⟨i, hi⟩
    rw [List.getElem?_eq_getElem hi, Option.some_inj] at this
    exact lt_of_eq_of_lt this (fc ⟨i, hi⟩).2
  by_cases hz : Nonempty α
  · obtain ⟨d⟩ := hz
    obtain ⟨f, hf, hv⟩ := (Mat.denotes_iff d).1 h
    obtain ⟨m', e, hm'⟩ := hf.submatrix rs cs hr' hc'
    refine ⟨m', e, hm'.denotes' fun i j => ?_⟩
    rw [List.getD_eq_getElem?_getD, List.getD_eq_getElem?_getD, hfr i, hfc j]
    exact hv (fr i) (fc j)
  · -- no entries at all
    have he : m.elems = [] := by
      cases hm : m.elems with
      | nil => rfl
      | cons x l => exact absurd ⟨x⟩ hz
    have hno : ∀ (i : Fin r) (j : Fin c), False := by
      intro i j
      obtain ⟨x, -, -⟩ := h.entry i j
      exact hz ⟨x⟩
    have hrc : rs = [] ∨ cs = [] := by
      by_contra hcon
      push Not at hcon
      obtain ⟨h1, h2⟩ := hcon
      exact hno (fr ⟨0, List.length_pos_iff.2 h1⟩) (fc ⟨0, List.length_pos_iff.2 h2⟩)
    have e : rs.mapM (fun x => cs.mapM fun y => m.get x y) = some (rs.map fun _ => []) := by
      apply mapM_eq_map
      intro x hx
      rcases hrc with h1 | h1
      · subst h1; simp at hx
      · subst h1; rfl
    refine ⟨_, by unfold Mat.submatrix; rw [e]; rfl, rfl, rfl, ?_, ?_⟩
    · rcases hrc with h1 | h1 <;> subst h1 <;> simp
    · intro i j
      exact (hno (fr i) (fc j)).elim

end

section
variable {α R : Type} [Semiring R] {S : SemiRingOps α} {v : α → R} (h : S.Models v)
include h

theorem SemiRingOps.Models.matZero (r c : Nat) : ∃ m, S.matZero r c = some m ∧ m.Denotes v (0 : Matrix (Fin r) (Fin c) R) := by
  obtain ⟨m, e, hm, -⟩ := Mat.construct_rep (R := r) (C := c) (mk := fun _ _ => some S.zero) (f := fun _ _ => S.zero) fun _ _ _ _ => rfl
  exact ⟨m, e, hm.denotes' fun i j => h.zero⟩

theorem SemiRingOps.Models.matIdent (n : Nat) : ∃ m, S.matIdent n = some m ∧ m.Denotes v (1 : Matrix (Fin n) (Fin n) R) := by
  obtain ⟨m, e, hm, -⟩ := Mat.construct_rep (R := n) (C := n) (mk := fun r c => some (S.identEntry r c)) (f := S.identEntry)
    fun _ _ _ _ => rfl
  refine ⟨m, e, hm.denotes' fun i j => ?_⟩
  unfold SemiRingOps.identEntry
  rw [Matrix.one_apply]
  by_cases hij : i = j
  · rw [if_pos hij, if_pos (by rw [hij]), h.one]
  · rw [if_neg hij, if_neg (by rwa [Fin.val_inj]), h.zero]

theorem SemiRingOps.Models.matDiag (d : List α) :
    ∃ m, S.matDiag d = some m ∧ m.Denotes v (Matrix.diagonal fun i : Fin d.length => v d[i]) := by
  obtain ⟨m, e, hm, -⟩ := Mat.construct_rep (R := d.length) (C := d.length) (mk := S.diagEntry d)
    (f := fun r c => if r = c then d.getD r S.zero else S.zero) (by
      intro r c hr hc
      unfold SemiRingOps.diagEntry
      split
      · rw [List.getElem?_eq_getElem hr, List.getD_eq_getElem _ _ hr]
      · rfl)
  refine ⟨m, e, hm.denotes' fun i j => ?_⟩
  rw [Matrix.diagonal_apply]
  by_cases hij : i = j
  · rw [if_pos hij, if_pos (by rw [hij]), List.getD_eq_getElem _ _ i.2]
    rfl
  · rw [if_neg hij, if_neg (by rwa [Fin.val_inj]), h.zero]

theorem SemiRingOps.Models.matEqual {a b : Mat α} {r c : Nat} {A B : Matrix (Fin r) (Fin c) R} (ha : a.Denotes v A)
    (hb : b.Denotes v B) : ∃ e, S.matEqual a b = some e ∧ (e = true ↔ A = B) := by
  unfold SemiRingOps.matEqual
  rw [if_neg (by rw [ha.rows, hb.rows]; simp), if_neg (by rw [ha.cols, hb.cols]; simp), ha.rows, ha.cols]
  obtain ⟨e, he, hiff⟩ := allM_some (List.range c) (p := fun c => (List.range r).allM fun r => S.matEntryEq a b r c)
    (P := fun j => ∀ (hj : j < c) (i : Fin r), A i ⟨j, hj⟩ = B i ⟨j, hj⟩) (by
      intro j hj
      rw [List.mem_range] at hj
      obtain ⟨e, he, hiff⟩ := allM_some (List.range r) (p := fun r => S.matEntryEq a b r j)
        (P := fun i => ∀ (hi : i < r), A ⟨i, hi⟩ ⟨j, hj⟩ = B ⟨i, hi⟩ ⟨j, hj⟩) (by
          intro i hi
          rw [List.mem_range] at hi
          obtain ⟨x, hx, hvx⟩ := ha.get ⟨i, hi⟩ ⟨j, hj⟩
          obtain ⟨y, hy, hvy⟩ := hb.get ⟨i, hi⟩ ⟨j, hj⟩
          refine ⟨S.equal x y, ?_, ?_⟩
          · unfold SemiRingOps.matEntryEq
            simp only at hx hy
            rw [hx, hy]
            rfl
          · rw [h.equal, hvx, hvy]
            exact ⟨fun hh _ => hh, fun hh => hh hi⟩)
      refine ⟨e, he, hiff.trans ⟨fun hh _ i => hh i (List.mem_range.2 i.2) i.2, fun hh i _ hi => hh hj ⟨i, hi⟩⟩⟩)
  refine ⟨e, he, hiff.trans ⟨fun hh => ?_, fun hh => ?_⟩⟩
  · ext i j
    exact hh j (List.mem_range.2 j.2) j.2 i
  · intro j _ hj i
    rw [hh]

omit h in
theorem SemiRingOps.matEqual_dim {a b : Mat α} (hd : a.rows ≠ b.rows ∨ a.cols ≠ b.cols) : S.matEqual a b = some false := by
  unfold SemiRingOps.matEqual
  rcases hd with hd | hd
  · rw [if_pos hd]
  · by_cases h1 : a.rows ≠ b.rows
    · rw [if_pos h1]
    · rw [if_neg h1, if_pos hd]

theorem SemiRingOps.Models.matAdd {a b : Mat α} {r c : Nat} {A B : Matrix (Fin r) (Fin c) R} (ha : a.Denotes v A)
    (hb : b.Denotes v B) : ∃ s, S.matAdd a b = some (.ok s) ∧ s.Denotes v (A + B) := by
  obtain ⟨f, hf, hvf⟩ := (Mat.denotes_iff S.zero).1 ha
  obtain ⟨g, hg, hvg⟩ := (Mat.denotes_iff S.zero).1 hb
  unfold SemiRingOps.matAdd
  rw [if_neg (by rw [ha.rows, hb.rows, ha.cols, hb.cols]; simp), ha.rows, ha.cols]
  obtain ⟨s, e, hs⟩ := hf.loopCR (step := S.matAddStep b) (fun i j x => S.add x (g i j)) (by
    intro m k i j hi hj hm _
    unfold SemiRingOps.matAddStep
    rw [hg.get i j hi hj]
    exact hm.modify hi hj rfl)
  refine ⟨s, by rw [e]; rfl, hs.denotes' fun i j => ?_⟩
  rw [h.add, hvf, hvg]
  rfl

theorem SemiRingOps.Models.matMulScalar {a : Mat α} {r c : Nat} {A : Matrix (Fin r) (Fin c) R} (ha : a.Denotes v A) (x : α) :
    ∃ s, S.matMulScalar a x = some s ∧ s.Denotes v (A.map fun y => y * v x) := by
  obtain ⟨f, hf, hvf⟩ := (Mat.denotes_iff S.zero).1 ha
  unfold SemiRingOps.matMulScalar
  rw [ha.rows, ha.cols]
  obtain ⟨s, e, hs⟩ := hf.loopRC (step := Mat.modify fun y => some (S.mul y x)) (fun i j y => S.mul y x) (by
    intro m k i j hi hj hm _
    exact hm.modify hi hj rfl)
  refine ⟨s, e, hs.denotes' fun i j => ?_⟩
  rw [h.mul, hvf]
  rfl

theorem SemiRingOps.Models.foldl_dot (l : List Nat) (f g : Nat → α) (z : α) :
    v (l.foldl (fun z k => S.add z (S.mul (f k) (g k))) z) = v z + (l.map fun k => v (f k) * v (g k)).sum := by
  induction l generalizing z with
  | nil => simp
  | cons k l ih => rw [List.foldl_cons, ih, List.map_cons, List.sum_cons, h.add, h.mul, add_assoc]

theorem SemiRingOps.Models.matMul {a b : Mat α} {r k c : Nat} {A : Matrix (Fin r) (Fin k) R} {B : Matrix (Fin k) (Fin c) R}
    (ha : a.Denotes v A) (hb : b.Denotes v B) : ∃ s, S.matMul a b = some (.ok s) ∧ s.Denotes v (A * B) := by
  obtain ⟨f, hf, hvf⟩ := (Mat.denotes_iff S.zero).1 ha
  obtain ⟨g, hg, hvg⟩ := (Mat.denotes_iff S.zero).1 hb
  unfold SemiRingOps.matMul
  rw [if_neg (by rw [ha.cols, hb.rows]; simp), ha.rows, ha.cols, hb.cols]
  obtain ⟨z, ez, hz, -⟩ := Mat.construct_rep (R := r) (C := c) (mk := fun _ _ => some S.zero) (f := fun _ _ => S.zero) fun _ _ _ _ => rfl
  unfold SemiRingOps.matZero
  rw [ez, Option.bind_some]
  obtain ⟨s, e, hs⟩ := hz.loopRC (step := fun s r c => (List.range k).foldlM (S.matMulStep a b r c) s)
    (fun i j z => (List.range k).foldl (fun z l => S.add z (S.mul (f i l) (g l j))) z) (by
      intro m q i j hi hj hm _
      obtain ⟨m', e', hm'⟩ := hm.foldlM (List.range k) (step := S.matMulStep a b i j)
        (fun q l i' j' => if i' = i ∧ j' = j then S.add (q i j) (S.mul (f i l) (g l j)) else q i' j') (by
          intro m q l hl hm
          rw [List.mem_range] at hl
          unfold SemiRingOps.matMulStep
          rw [hf.get i l hi hl, hg.get l j hl hj]
          exact hm.modify hi hj rfl)
      refine ⟨m', e', hm'.congr ?_⟩
      intro i' j' _ _
      exact foldl_cell _ (fun l z => S.add z (S.mul (f i l) (g l j))) q i j i' j')
  refine ⟨s, by rw [e]; rfl, hs.denotes' fun i j => ?_⟩
  rw [h.foldl_dot, h.zero, zero_add, sum_range_fin, Matrix.mul_apply]
  exact Finset.sum_congr rfl fun l _ => by rw [hvf, hvg]

theorem SemiRingOps.Models.matMulUnwrap {a b : Mat α} {r k c : Nat} {A : Matrix (Fin r) (Fin k) R} {B : Matrix (Fin k) (Fin c) R}
    (ha : a.Denotes v A) (hb : b.Denotes v B) : ∃ s, S.matMulUnwrap a b = some s ∧ s.Denotes v (A * B) := by
  obtain ⟨s, e, hs⟩ := h.matMul ha hb
  exact ⟨s, by unfold SemiRingOps.matMulUnwrap; rw [e]; rfl, hs⟩

theorem SemiRingOps.Models.matDot {a b : Mat α} {r c : Nat} {A B : Matrix (Fin r) (Fin c) R} (ha : a.Denotes v A) (hb : b.Denotes v B) :
    ∃ x, S.matDot a b = some x ∧ v x = ∑ i, ∑ j, A i j * B i j := by
  obtain ⟨f, hf, hvf⟩ := (Mat.denotes_iff S.zero).1 ha
  obtain ⟨g, hg, hvg⟩ := (Mat.denotes_iff S.zero).1 hb
  unfold SemiRingOps.matDot
  rw [if_pos ⟨by rw [ha.rows, hb.rows], by rw [ha.cols, hb.cols]⟩, ha.rows, ha.cols]
  rw [foldlM_some (List.range r) (F := fun tot i => (List.range c).foldl (fun z l => S.add z (S.mul (f i l) (g i l))) tot)]
  · refine ⟨_, rfl, ?_⟩
    have : ∀ (L : List Nat) (z : α), v (L.foldl (fun tot i => (List.range c).foldl (fun z l => S.add z (S.mul (f i l) (g i l))) tot) z) =
        v z + (L.map fun i => ∑ j : Fin c, v (f i j) * v (g i j)).sum := by
      intro L
      induction L with
      | nil => intro z; simp
      | cons i L ih => intro z; rw [List.foldl_cons, ih, h.foldl_dot, sum_range_fin, List.map_cons, List.sum_cons, add_assoc]
    rw [this, h.zero, zero_add, sum_range_fin]
    exact Finset.sum_congr rfl fun i _ => Finset.sum_congr rfl fun j _ => by rw [hvf, hvg]
  · intro tot i hi
    rw [List.mem_range] at hi
    apply foldlM_some
    intro z l hl
    rw [List.mem_range] at hl
    unfold SemiRingOps.dotStep
    rw [hf.get i l hi hl, hg.get i l hi hl]
    rfl

theorem SemiRingOps.Models.matTrace {a : Mat α} {n : Nat} {A : Matrix (Fin n) (Fin n) R} (ha : a.Denotes v A) :
    ∃ x, S.matTrace a = some (.ok x) ∧ v x = A.trace := by
  obtain ⟨f, hf, hvf⟩ := (Mat.denotes_iff S.zero).1 ha
  have hd : a.dim1 = n ∧ a.dim2 = n := by
    have h1 := ha.rows
    have h2 := ha.cols
    unfold Mat.rows at h1
    unfold Mat.cols at h2
    split at h1
    · rw [if_pos (by assumption)] at h2; exact ⟨h2, h1⟩
    · rw [if_neg (by assumption)] at h2; exact ⟨h1, h2⟩
  unfold SemiRingOps.matTrace
  rw [if_neg (by rw [hd.1, hd.2]; simp), hd.1, mapM_eq_map (List.range n) (g := fun i => f i i) (by
    intro i hi
    rw [List.mem_range] at hi
    exact hf.get i i hi hi)]
  refine ⟨_, rfl, ?_⟩
  rw [h.sum, List.map_map, Matrix.trace]
  change ((List.range n).map fun i => v (f i i)).sum = _
  rw [sum_range_fin]
  exact Finset.sum_congr rfl fun i _ => by rw [hvf]; rfl

omit h in
theorem Mat.Denotes.dims {a : Mat α} {r c : Nat} {A : Matrix (Fin r) (Fin c) R} (ha : a.Denotes v A) : a.dim1 = a.dim2 ↔ r = c := by
  have h1 := ha.rows
  have h2 := ha.cols
  unfold Mat.rows at h1
  unfold Mat.cols at h2
  cases ht : a.transpose <;> simp only [ht, if_true, Bool.false_eq_true, if_false] at h1 h2 <;> rw [h1, h2]
  exact eq_comm

theorem SemiRingOps.Models.matGrowPows {n : Nat} (k : Nat) {a : Mat α} {A : Matrix (Fin n) (Fin n) R} (ha : a.Denotes v A)
    (pows : List (Mat α)) : ∃ ps, S.matGrowPows k pows a = some (pows ++ ps) ∧
      List.Forall₂ (fun m M => m.Denotes v M) ps (sqs (· * ·) k A) := by
  induction k generalizing a A pows with
  | zero => exact ⟨[], by simp [SemiRingOps.matGrowPows], .nil⟩
  | succ k ih =>
    obtain ⟨s, e, hs⟩ := h.matMulUnwrap ha ha
    obtain ⟨ps, e', hps⟩ := ih hs (pows ++ [s])
    refine ⟨s :: ps, ?_, ?_⟩
    · rw [SemiRingOps.matGrowPows, e, Option.bind_some, e']
      simp
    · rw [sqs]
      exact .cons hs hps

theorem SemiRingOps.Models.matPowFold {n : Nat} (bits : List Bool) {ps : List (Mat α)} {Ps : List (Matrix (Fin n) (Fin n) R)}
    (hps : List.Forall₂ (fun m M => m.Denotes v M) ps Ps) {a : Mat α} {A : Matrix (Fin n) (Fin n) R} (ha : a.Denotes v A) :
    ∃ s, (bits.zip ps).foldlM S.matPowStep a = some s ∧
      s.Denotes v ((bits.zip Ps).foldl (fun ans bp => if bp.1 then ans * bp.2 else ans) A) := by
  induction bits generalizing ps Ps a A with
  | nil => exact ⟨a, rfl, ha⟩
  | cons b bits ih =>
    cases hps with
    | nil => exact ⟨a, rfl, ha⟩
    | cons hm hps =>
      rename_i m M ms Ms
      cases b with
      | false =>
        obtain ⟨s, e, hs⟩ := ih hps ha
        exact ⟨s, by rw [List.zip_cons_cons, List.foldlM_cons]; exact e, hs⟩
      | true =>
        obtain ⟨p, e1, hp⟩ := h.matMulUnwrap ha hm
        obtain ⟨s, e, hs⟩ := ih hps hp
        refine ⟨s, ?_, hs⟩
        rw [List.zip_cons_cons, List.foldlM_cons]
        unfold SemiRingOps.matPowStep at e ⊢
        simp only [if_true, e1]
        exact e

theorem SemiRingOps.Models.matNatPow {a : Mat α} {n : Nat} {A : Matrix (Fin n) (Fin n) R} (ha : a.Denotes v A) (k : Nat) :
    ∃ s, S.matNatPow a k = some s ∧ s.Denotes v (A ^ k) := by
  unfold SemiRingOps.matNatPow
  rw [if_neg (by rw [ha.rows, ha.cols]; simp), ha.rows]
  by_cases h0 : k = 0
  · rw [if_pos h0, h0, pow_zero]
    exact h.matIdent n
  rw [if_neg h0]
  by_cases h1 : k = 1
  · rw [if_pos h1, h1, pow_one]
    exact ⟨a, rfl, ha⟩
  rw [if_neg h1]
  obtain ⟨ps, e, hps⟩ := h.matGrowPows (k.bits.length - 1) ha [a]
  obtain ⟨one, e1, hone⟩ := h.matIdent n
  rw [e, Option.bind_some, e1, Option.bind_some]
  obtain ⟨s, e2, hs⟩ := h.matPowFold k.bits (List.Forall₂.cons ha hps) hone
  refine ⟨s, e2, ?_⟩
  have : (k.bits.zip (A :: sqs (· * ·) (k.bits.length - 1) A)).foldl (fun ans bp => if bp.1 then ans * bp.2 else ans) 1 = A ^ k := by
    rw [← binPow_eq_pow A k]
    unfold binPow
    rw [if_neg h0, if_neg h1]
    unfold foldPows
    dsimp only
    rw [growPows_eq]
    rfl
  rw [← this]
  exact hs

end

end Verif.Rings
