import Verif.Spec.Geometry
import Verif.Proofs.MatrixDet
import Verif.Proofs.Structure
import Verif.Proofs.HermiteApp
import Verif.Proofs.LatticeSolve

/-! # Vectors -/

namespace Verif.Geometry

open Verif.Rings

section
variable {α K : Type} [Field K] {v : α → K} {d : Nat} {sp : Space}

theorem Space.linDim_eq (hd : sp.dim = d + 1) : sp.linDim = some d := by unfold Space.linDim; rw [hd]; simp

theorem Space.linDim_empty (hd : sp.dim = 0) : sp.linDim = none := by unfold Space.linDim; rw [hd]; simp

theorem Vec.In.len {p : Vec α} (hp : p.In sp) (hd : sp.dim = d + 1) : p.coords.length = d := by have := hp.length; omega

theorem Vec.In.coordinate {p : Vec α} (hp : p.In sp) (hd : sp.dim = d + 1) (i : Fin d) :
    ∃ x, p.coordinate i = some x ∧ v x = p.val v d i := by
  have h1 : (i : Nat) < p.coords.length := by rw [hp.len hd]; exact i.2
  refine ⟨p.coords[(i : Nat)], List.getElem?_eq_getElem h1, ?_⟩
  unfold Vec.val
  rw [List.getElem?_eq_getElem h1]
  rfl

theorem Vec.In.coordinate' {p : Vec α} (hp : p.In sp) (hd : sp.dim = d + 1) (v : α → K) {i : Nat} (hi : i < d) :
    ∃ x, p.coordinate i = some x ∧ v x = p.val v d ⟨i, hi⟩ := hp.coordinate (v := v) hd ⟨i, hi⟩

theorem Vec.val_mk (l : List α) (i : Fin d) (hi : (i : Nat) < l.length) : (Vec.mk sp l).val v d i = v l[(i : Nat)] := by
  unfold Vec.val
  simp only [List.getElem?_eq_getElem hi]
  rfl

/-- building a vector coordinate by coordinate -/
theorem mapM_coords (v : α → K) {f : Nat → Option α} {x : Fin d → K} (hd : sp.dim = d + 1)
    (hf : ∀ i : Fin d, ∃ y, f i = some y ∧ v y = x i) :
    ∃ l, (List.range d).mapM f = some l ∧ (Vec.mk sp l).In sp ∧ (Vec.mk sp l).val v d = x := by
  choose g hg1 hg2 using hf
  rcases Nat.eq_zero_or_pos d with h0 | h0
  · subst h0
    exact ⟨[], rfl, ⟨rfl, by simp [hd]⟩, funext fun i => i.elim0⟩
  · refine ⟨(List.range d).map fun i => if h : i < d then g ⟨i, h⟩ else g ⟨0, h0⟩, ?_, ⟨rfl, by simp [hd]⟩, ?_⟩
    · apply mapM_eq_map
      intro i hi
      have : i < d := List.mem_range.1 hi
      rw [dif_pos this]
      exact hg1 ⟨i, this⟩
    · funext i
      rw [Vec.val_mk _ _ (by simp)]
      simp [i.2, hg2]

theorem Vec.construct_some (v : α → K) {f : Nat → Option α} {x : Fin d → K} (hd : sp.dim = d + 1)
    (hf : ∀ i : Fin d, ∃ y, f i = some y ∧ v y = x i) :
    ∃ p, Vec.construct sp f = some p ∧ p.In sp ∧ p.val v d = x := by
  obtain ⟨l, h1, h2, h3⟩ := mapM_coords v hd hf
  refine ⟨_, ?_, h2, h3⟩
  unfold Vec.construct
  rw [Space.linDim_eq hd]
  simp [h1]

theorem Vec.construct_empty {f : Nat → Option α} (hd : sp.dim = 0) : Vec.construct sp f = none := by
  unfold Vec.construct; rw [Space.linDim_empty hd]; rfl

theorem Vec.ext_coords {p q : Vec α} (hv : Function.Injective v) (hd : sp.dim = d + 1) (hp : p.In sp) (hq : q.In sp) (h : p.val v d = q.val v d) :
    p = q := by
  obtain ⟨s1, l1⟩ := p
  obtain ⟨s2, l2⟩ := q
  obtain rfl : s1 = sp := hp.space
  obtain rfl : s2 = s1 := hq.space
  have e1 := hp.len hd
  have e2 := hq.len hd
  congr 1
  apply List.ext_getElem (by simp_all)
  intro i h1 h2
  have := congrFun h ⟨i, by simp_all⟩
  rw [Vec.val_mk _ _ (by simpa using h1), Vec.val_mk _ _ (by simpa using h2)] at this
  exact hv this

theorem commonSpace_self {p q : Vec α} (hp : p.In sp) (hq : q.In sp) : commonSpace p.space q.space = some sp := by
  unfold commonSpace; rw [hp.space, hq.space, if_pos rfl]

theorem all_space {l : List (Vec α)} (hl : ∀ p ∈ l, p.In sp) : (l.all fun p => decide (sp = p.space)) = true := by
  rw [List.all_eq_true]
  intro p hp
  rw [(hl p hp).space]; simp

theorem all_space' {l : List (Vec α)} (hl : ∀ p ∈ l, p.In sp) : (l.all fun p => decide (p.space = sp)) = true := by
  rw [List.all_eq_true]
  intro p hp
  rw [(hl p hp).space]; simp

/-- a matrix built entry by entry -/
theorem construct_denotes (z : α) {r c : Nat} {mk : Nat → Nat → Option α} {A : Matrix (Fin r) (Fin c) K}
    (h : ∀ (i : Fin r) (j : Fin c), ∃ x, mk i j = some x ∧ v x = A i j) : ∃ m, Mat.construct r c mk = some m ∧ m.Denotes v A := by
  obtain ⟨m, e, hm, -⟩ := Mat.construct_rep (R := r) (C := c) (mk := mk) (f := fun i j => (mk i j).getD z) (by
    intro i j hi hj
    obtain ⟨x, hx, -⟩ := h ⟨i, hi⟩ ⟨j, hj⟩
    simp only at hx
    rw [hx]; rfl)
  refine ⟨m, e, hm.denotes' ?_⟩
  intro i j
  obtain ⟨x, hx, hv⟩ := h i j
  rw [hx]
  exact hv

theorem rowsFromVectors_denotes (z : α) {vecs : List (Vec α)} (hd : sp.dim = d + 1) (hv : ∀ p ∈ vecs, p.In sp) :
    ∃ m, rowsFromVectors sp vecs = some m ∧ m.Denotes v (Matrix.of (pointsOf v d vecs)) := by
  obtain ⟨m, h1, h2⟩ := construct_denotes (v := v) z (r := vecs.length) (c := d)
    (mk := fun r c => (vecs[r]?).bind fun p => p.coordinate c) (A := Matrix.of (pointsOf v d vecs)) (by
      intro i j
      rw [List.getElem?_eq_getElem i.2]
      exact (hv _ (List.getElem_mem i.2)).coordinate hd j)
  refine ⟨m, ?_, h2⟩
  unfold rowsFromVectors
  simp only [all_space hv, Space.linDim_eq hd, assertThat, if_true, Option.bind_eq_bind, Option.bind_some, h1]

theorem intoCol_denotes (z : α) {p : Vec α} (hd : sp.dim = d + 1) (hp : p.In sp) :
    ∃ m, p.intoCol = some m ∧ m.Denotes v (Matrix.of fun (i : Fin d) (_ : Fin 1) => p.val v d i) := by
  obtain ⟨m, h1, h2⟩ := construct_denotes (v := v) z (r := d) (c := 1)
    (mk := fun r _ => p.coordinate r) (A := Matrix.of fun (i : Fin d) (_ : Fin 1) => p.val v d i) (fun i j => hp.coordinate hd i)
  refine ⟨m, ?_, h2⟩
  unfold Vec.intoCol
  rw [hp.space, Space.linDim_eq hd]
  exact h1

theorem intoRow_denotes (z : α) {p : Vec α} (hd : sp.dim = d + 1) (hp : p.In sp) :
    ∃ m, p.intoRow = some m ∧ m.Denotes v (Matrix.of fun (_ : Fin 1) (i : Fin d) => p.val v d i) := by
  obtain ⟨m, h1, h2⟩ := construct_denotes (v := v) z (r := 1) (c := d)
    (mk := fun _ r => p.coordinate r) (A := Matrix.of fun (_ : Fin 1) (i : Fin d) => p.val v d i) (fun i j => hp.coordinate hd j)
  refine ⟨m, ?_, h2⟩
  unfold Vec.intoRow
  rw [hp.space, Space.linDim_eq hd]
  exact h1

/-- a function built element by element on a list, with a property of each result -/
theorem mapM_fin {β γ : Type} {l : List β} {f : β → Option γ} {P : Nat → γ → Prop} (h : ∀ (i : Nat) (hi : i < l.length), ∃ y, f l[i] = some y ∧ P i y) :
    ∃ l', l.mapM f = some l' ∧ l'.length = l.length ∧ ∀ (i : Nat) (hi : i < l'.length), P i l'[i] := by
  induction l generalizing P with
  | nil => exact ⟨[], rfl, rfl, fun i hi => absurd hi (by simp)⟩
  | cons a l ih =>
    obtain ⟨y, h1, h2⟩ := h 0 (by simp)
    obtain ⟨l', h3, h4, h5⟩ := ih (P := fun i => P (i + 1)) (fun i hi => h (i + 1) (by simpa using hi))
    simp only [List.getElem_cons_zero] at h1
    refine ⟨y :: l', ?_, by simp [h4], ?_⟩
    · rw [List.mapM_cons, h1, h3]; rfl
    · intro i hi
      cases i with
      | zero => exact h2
      | succ i => exact h5 i (by simpa using hi)

theorem vectorsFromRows_some {m : Mat α} {r : Nat} {A : Matrix (Fin r) (Fin d) K} (hd : sp.dim = d + 1) (hm : m.Denotes v A) :
    ∃ l, vectorsFromRows sp m = some l ∧ (∀ p ∈ l, p.In sp) ∧ ∃ e : l.length = r, ∀ i : Fin r, (l[i]'(by rw [e]; exact i.2)).val v d = A i := by
  have key : ∀ i : Fin r, ∃ p, ((List.range d).mapM (fun c => m.get i c)).bind (Vec.new sp) = some p ∧ p.In sp ∧ p.val v d = A i := by
    intro i
    obtain ⟨l, h1, h2, h3⟩ := mapM_coords (sp := sp) v (f := fun c => m.get i c) (x := A i) hd (fun j => hm.get i j)
    refine ⟨⟨sp, l⟩, ?_, h2, h3⟩
    rw [h1]
    have := h2.length
    simp only [Option.bind_some, Vec.new, Space.linDim_eq hd, Option.bind_eq_bind]
    rw [hd] at this
    simp only at this
    have e : d = l.length := by omega
    simp [assertThat, ← e]
  obtain ⟨l, h1, h2, h3⟩ := mapM_fin (l := List.range r) (f := fun i => ((List.range d).mapM (fun c => m.get i c)).bind (Vec.new sp))
    (P := fun i p => p.In sp ∧ ∀ h : i < r, p.val v d = A ⟨i, h⟩) (by
      intro i hi
      have hi' : i < r := by simpa using hi
      obtain ⟨p, h1, h2, h3⟩ := key ⟨i, hi'⟩
      exact ⟨p, by simpa using h1, h2, fun _ => h3⟩)
  have e : l.length = r := by simpa using h2
  refine ⟨l, ?_, ?_, e, fun i => (h3 i (by rw [e]; exact i.2)).2 i.2⟩
  · unfold vectorsFromRows
    rw [Space.linDim_eq hd, hm.rows, hm.cols]
    simpa [assertThat] using h1
  · intro p hp
    obtain ⟨i, hi, rfl⟩ := List.getElem_of_mem hp
    exact (h3 i hi).1

theorem vectorFromRow_some {m : Mat α} {A : Matrix (Fin 1) (Fin d) K} (hd : sp.dim = d + 1) (hm : m.Denotes v A) :
    ∃ p, vectorFromRow sp m = some p ∧ p.In sp ∧ p.val v d = A 0 := by
  obtain ⟨l, h1, h2, e, h3⟩ := vectorsFromRows_some hd hm
  match l, e with
  | [p], _ =>
    refine ⟨p, ?_, h2 p (by simp), h3 0⟩
    unfold vectorFromRow
    rw [Space.linDim_eq hd, hm.rows, hm.cols]
    simp [assertThat, h1]

theorem vectorFromCol_some {m : Mat α} {A : Matrix (Fin d) (Fin 1) K} (hd : sp.dim = d + 1) (hm : m.Denotes v A) :
    ∃ p, vectorFromCol sp m = some p ∧ p.In sp ∧ p.val v d = fun i => A i 0 := by
  obtain ⟨p, h1, h2, h3⟩ := vectorFromRow_some hd hm.transposed
  refine ⟨p, ?_, h2, h3⟩
  unfold vectorFromCol
  rw [Space.linDim_eq hd, hm.rows, hm.cols]
  simpa [assertThat] using h1

end

section
variable {α K : Type} [Field K] [LinearOrder K] {S : OrdOps α} {v : α → K} (h : S.Models v) {d : Nat} {sp : Space}
include h

theorem OrdOps.Models.bez : S.bez.Models v := h.toDomain.fieldEuc.bezout

theorem OrdOps.Models.vecNeg {p : Vec α} (hd : sp.dim = d + 1) (hp : p.In sp) : (S.vecNeg p).In sp ∧ (S.vecNeg p).val v d = -p.val v d := by
  have hl := hp.len hd
  refine ⟨⟨hp.space, by simpa [OrdOps.vecNeg] using hp.length⟩, funext fun i => ?_⟩
  unfold OrdOps.vecNeg
  rw [Vec.val_mk _ _ (by simp [hl]), List.getElem_map, h.toDomain.toRing.neg, Pi.neg_apply]
  exact congrArg _ (Vec.val_mk (v := v) (sp := p.space) p.coords i (by simp [hl])).symm

theorem OrdOps.Models.vecAdd {p q : Vec α} (hd : sp.dim = d + 1) (hp : p.In sp) (hq : q.In sp) :
    ∃ r, S.vecAdd p q = some r ∧ r.In sp ∧ r.val v d = p.val v d + q.val v d := by
  obtain ⟨l, h1, h2, h3⟩ := mapM_coords (sp := sp) v (f := fun i => do
    let x ← p.coordinate i
    let y ← q.coordinate i
    some (S.add x y)) (x := p.val v d + q.val v d) hd (by
      intro i
      obtain ⟨x, hx, hxv⟩ := hp.coordinate (v := v) hd i
      obtain ⟨y, hy, hyv⟩ := hq.coordinate (v := v) hd i
      refine ⟨S.add x y, by simp [hx, hy], ?_⟩
      rw [h.toDomain.toRing.toSemi.add, hxv, hyv, Pi.add_apply])
  refine ⟨⟨sp, l⟩, ?_, h2, h3⟩
  unfold OrdOps.vecAdd
  simp only [commonSpace_self hp hq, Space.linDim_eq hd, Option.bind_eq_bind, Option.bind_some]
  simp only [Option.bind_eq_bind] at h1
  rw [h1]
  rfl

theorem OrdOps.Models.vecSub {p q : Vec α} (hd : sp.dim = d + 1) (hp : p.In sp) (hq : q.In sp) :
    ∃ r, S.vecSub p q = some r ∧ r.In sp ∧ r.val v d = p.val v d - q.val v d := by
  obtain ⟨n1, n2⟩ := h.vecNeg hd hq
  obtain ⟨r, r1, r2, r3⟩ := h.vecAdd hd hp n1
  exact ⟨r, r1, r2, by rw [r3, n2, sub_eq_add_neg]⟩

theorem OrdOps.Models.vecScalarMul {p : Vec α} (hd : sp.dim = d + 1) (hp : p.In sp) (c : α) :
    (S.vecScalarMul p c).In sp ∧ (S.vecScalarMul p c).val v d = v c • p.val v d := by
  have hl := hp.len hd
  refine ⟨⟨hp.space, by simpa [OrdOps.vecScalarMul] using hp.length⟩, funext fun i => ?_⟩
  unfold OrdOps.vecScalarMul
  rw [Vec.val_mk _ _ (by simp [hl]), List.getElem_map, h.toDomain.toRing.toSemi.mul, Pi.smul_apply, smul_eq_mul, mul_comm]
  exact congrArg _ (Vec.val_mk (v := v) (sp := p.space) p.coords i (by simp [hl])).symm

theorem OrdOps.Models.vecZero (hd : sp.dim = d + 1) : ∃ p, S.vecZero sp = some p ∧ p.In sp ∧ p.val v d = 0 :=
  Vec.construct_some v hd fun _ => ⟨_, rfl, h.toDomain.toRing.toSemi.zero⟩

theorem OrdOps.Models.vecEq {p q : Vec α} (hd : sp.dim = d + 1) (hp : p.In sp) (hq : q.In sp) :
    S.vecEq p q = some (decide (p.val v d = q.val v d)) := by
  unfold OrdOps.vecEq
  rw [hp.space, hq.space, if_pos rfl, Space.linDim_eq hd]
  have key : ∀ i ∈ List.range d, (do
      let x ← p.coordinate i
      let y ← q.coordinate i
      some (S.equal x y)) = some (if hi : i < d then decide (p.val v d ⟨i, hi⟩ = q.val v d ⟨i, hi⟩) else true) := by
    intro i hi
    have hi := List.mem_range.1 hi
    obtain ⟨x, hx, hxv⟩ := hp.coordinate' hd v hi
    obtain ⟨y, hy, hyv⟩ := hq.coordinate' hd v hi
    simp only [hx, hy, Option.bind_eq_bind, Option.bind_some, dif_pos hi, Option.some.injEq]
    rw [Bool.eq_iff_iff, h.toDomain.toRing.toSemi.equal, hxv, hyv, decide_eq_true_iff]
  simp only [Option.bind_eq_bind] at key
  simp only [Option.bind_eq_bind, Option.bind_some, mapM_eq_map _ key, Option.some.injEq]
  rw [Bool.eq_iff_iff, List.all_eq_true, decide_eq_true_iff]
  constructor
  · intro hh
    funext i
    have := hh _ (List.mem_map.2 ⟨i, List.mem_range.2 i.2, rfl⟩)
    simpa [i.2] using this
  · intro hh b hb
    obtain ⟨i, hi, rfl⟩ := List.mem_map.1 hb
    have hi := List.mem_range.1 hi
    simp [hi, hh]

theorem OrdOps.Models.cmpLoop {p q : Vec α} (hd : sp.dim = d + 1) (hp : p.In sp) (hq : q.In sp) (k : Nat) (hk : k ≤ d)
    (heq : ∀ (i : Nat) (hi : i < d), i < k → p.val v d ⟨i, hi⟩ = q.val v d ⟨i, hi⟩) :
    S.cmpLoop p q (List.range' k (d - k)) = some (compare (toLex (p.val v d)) (toLex (q.val v d))) := by
  obtain ⟨n, hn⟩ : ∃ n, n = d - k := ⟨_, rfl⟩
  induction n generalizing k with
  | zero =>
    rw [← hn]
    have : p.val v d = q.val v d := funext fun i => heq i i.2 (by omega)
    simp [OrdOps.cmpLoop, this]
  | succ n ih =>
    rw [← hn, List.range'_succ]
    have hkd : k < d := by omega
    obtain ⟨x, hx, hxv⟩ := hp.coordinate' hd v hkd
    obtain ⟨y, hy, hyv⟩ := hq.coordinate' hd v hkd
    have ht := ih (k + 1) (by omega) 
    simp only [OrdOps.cmpLoop, hx, hy, Option.bind_eq_bind, Option.bind_some, h.cmp, hxv, hyv]
    rcases lt_trichotomy (p.val v d ⟨k, hkd⟩) (q.val v d ⟨k, hkd⟩) with hlt | he | hgt
    · rw [compare_lt_iff_lt.2 hlt]
      simp only [Option.some.injEq]
      symm
      rw [compare_lt_iff_lt]
      exact ⟨⟨k, hkd⟩, fun j hj => heq j j.2 hj, hlt⟩
    · rw [compare_eq_iff_eq.2 he]
      simp only
      rw [show n = d - (k + 1) by omega]
      apply ht
      · intro i hi hik
        rcases Nat.lt_succ_iff_lt_or_eq.1 hik with h1 | h1
        · exact heq i hi h1
        · subst h1; exact he
      · omega
    · rw [compare_gt_iff_gt.2 hgt]
      simp only [Option.some.injEq]
      symm
      rw [compare_gt_iff_gt]
      exact ⟨⟨k, hkd⟩, fun j hj => (heq j j.2 hj).symm, hgt⟩

theorem OrdOps.Models.vecCmp {p q : Vec α} (hd : sp.dim = d + 1) (hp : p.In sp) (hq : q.In sp) :
    S.vecCmp p q = some (compare (toLex (p.val v d)) (toLex (q.val v d))) := by
  unfold OrdOps.vecCmp
  simp only [commonSpace_self hp hq, Space.linDim_eq hd, Option.bind_eq_bind, Option.bind_some]
  rw [List.range_eq_range']
  exact h.cmpLoop hd hp hq 0 (by omega) (fun i _ hi => absurd hi (by omega))

theorem OrdOps.Models.vecLe {p q : Vec α} (hd : sp.dim = d + 1) (hp : p.In sp) (hq : q.In sp) :
    S.vecLe p q ↔ toLex (p.val v d) ≤ toLex (q.val v d) := by
  unfold OrdOps.vecLe
  rw [h.vecCmp hd hp hq, Ne, Option.some.injEq, compare_gt_iff_gt, not_lt]

end

end Verif.Geometry
