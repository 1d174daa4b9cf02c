import Verif.Proofs.GeometryEmbed
import Verif.Proofs.LatticeExt

/-! # Spans of dependent points, and subspaces as intersections of hyperplanes -/

namespace Verif.Geometry

open Verif.Rings

section Math
variable {K : Type} [Field K]

/-- the columns of the pivots of a Hermite form -/
theorem pivot_cols {m n : Nat} {A H : Matrix (Fin m) (Fin n) K} {U : Matrix (Fin m) (Fin m) K} {pivs : List Nat}
    (hE : IsRowEchelon H pivs) (hmul : H = U * A) (hU : IsUnit U.det) :
    pivs.length = A.rank ∧
    Submodule.span K (Set.range fun (i : Fin pivs.length) => A.transpose ⟨pivs[i], hE.lt _ (List.getElem_mem _)⟩) =
      Submodule.span K (Set.range A.transpose) := by
  have hr : pivs.length = A.rank := by
    rw [← hE.rank, hmul]
    exact Matrix.rank_mul_eq_right_of_isUnit_det U A hU
  refine ⟨hr, ?_⟩
  apply Submodule.eq_of_le_of_finrank_eq
  · apply Submodule.span_mono
    rintro _ ⟨i, rfl⟩
    exact ⟨_, rfl⟩
  · rw [finrank_span_eq_card (hE.cols_indep hmul), Fintype.card_fin, hr, Matrix.rank_eq_finrank_span_cols]
    rfl

/-- if the first columns are independent they all are pivots -/
theorem pivot_first {m n a : Nat} {A H : Matrix (Fin m) (Fin n) K} {U : Matrix (Fin m) (Fin m) K} {pivs : List Nat}
    (hE : IsRowEchelon H pivs) (hmul : H = U * A) (hU : IsUnit U.det) (ha : a ≤ n)
    (hi : LinearIndependent K fun i : Fin a => A.transpose (Fin.castLE ha i)) :
    pivs = List.range a ++ pivs.filter fun p => decide (a ≤ p) := by
  have hT := hE.take_cols ha
  have hr := hT.rank
  have e : H.submatrix id (Fin.castLE ha) = U * A.submatrix id (Fin.castLE ha) := by
    rw [hmul]
    ext i j
    rfl
  rw [e, Matrix.rank_mul_eq_right_of_isUnit_det U _ hU, Matrix.rank_eq_finrank_span_cols] at hr
  have h2 : Module.finrank K (Submodule.span K (Set.range (A.submatrix id (Fin.castLE ha)).col)) = a := by
    have := finrank_span_eq_card hi
    rw [Fintype.card_fin] at this
    exact this
  rw [h2] at hr
  have h3 := eq_range_of_increasing hT.increasing hT.lt hr.symm
  rw [← h3]
  exact filter_split hE.increasing

end Math

section
variable {α K : Type} [Field K] {v : α → K} {d : Nat} {sp : Space}

theorem pointSet_cons (p : Vec α) (l : List (Vec α)) : pointSet v d (p :: l) = insert (p.val v d) (pointSet v d l) := by
  ext x
  simp only [pointSet, Set.mem_setOf_eq, List.mem_cons, Set.mem_insert_iff]
  constructor
  · rintro ⟨q, rfl | hq, rfl⟩
    · exact .inl rfl
    · exact .inr ⟨q, hq, rfl⟩
  · rintro (rfl | ⟨q, hq, rfl⟩)
    · exact ⟨p, .inl rfl, rfl⟩
    · exact ⟨q, .inr hq, rfl⟩

/-- a point of the affine span of a root and other points -/
theorem mem_span_cons (root : Vec α) (l : List (Vec α)) (x : Fin d → K) :
    x ∈ affineSpan K (pointSet v d (root :: l)) ↔
      x - root.val v d ∈ Submodule.span K (Set.range fun i : Fin l.length => l[i].val v d - root.val v d) := by
  have h0 : root.val v d ∈ affineSpan K (pointSet v d (root :: l)) := subset_affineSpan K _ ⟨root, by simp, rfl⟩
  rw [← AffineSubspace.vsub_right_mem_direction_iff_mem h0 x, ← range_pointsOf, span_succ (n := l.length)]
  rfl

theorem indep_cons (root : Vec α) (l : List (Vec α)) : AffineIndependent K (pointsOf v d (root :: l)) ↔
    LinearIndependent K (fun i : Fin l.length => l[i].val v d - root.val v d) :=
  affineIndependent_fin_succ (n := l.length) _

theorem Independent.notMem_erase {l : List (Vec α)} (hl : Independent v d sp l) {k : Nat} (hk : k < l.length) :
    l[k].val v d ∉ affineSpan K (pointSet v d (l.eraseIdx k)) := by
  have h1 := hl.indep.notMem_affineSpan_diff ⟨k, hk⟩ Set.univ
  have h2 : pointsOf v d l '' (Set.univ \ {⟨k, hk⟩}) = pointSet v d (l.eraseIdx k) := by
    ext x
    constructor
    · rintro ⟨i, hi, rfl⟩
      refine ⟨l[i], ?_, rfl⟩
      rw [List.mem_eraseIdx_iff_getElem]
      exact ⟨i, i.2, by intro e; exact hi.2 (Fin.ext e), rfl⟩
    · rintro ⟨p, hp, rfl⟩
      rw [List.mem_eraseIdx_iff_getElem] at hp
      obtain ⟨i, hi, hik, rfl⟩ := hp
      exact ⟨⟨i, hi⟩, ⟨trivial, fun e => hik (by simpa using e)⟩, rfl⟩
  rw [h2] at h1
  exact h1

end

section
variable {α K : Type} [Field K] [LinearOrder K] {S : OrdOps α} {v : α → K} (h : S.Models v) {d : Nat} {sp : Space}
include h

/-- translating points by a root -/
theorem OrdOps.Models.addAll {root : Vec α} {l : List (Vec α)} (hd : sp.dim = d + 1) (hr : root.In sp) (hl : ∀ p ∈ l, p.In sp) :
    ∃ l', (l.mapM fun q => S.vecAdd root q) = some l' ∧ l'.length = l.length ∧ (∀ p ∈ l', p.In sp) ∧
      ∀ (i : Nat) (hi : i < l'.length) (hi' : i < l.length), l'[i].val v d = root.val v d + l[i].val v d := by
  obtain ⟨l', h1, h2, h3⟩ := mapM_fin (l := l) (f := fun q => S.vecAdd root q)
    (P := fun i p => p.In sp ∧ ∀ hi : i < l.length, p.val v d = root.val v d + l[i].val v d) (by
      intro i hi
      obtain ⟨r, r1, r2, r3⟩ := h.vecAdd hd hr (hl _ (List.getElem_mem hi))
      exact ⟨r, r1, r2, fun _ => r3⟩)
  refine ⟨l', h1, h2, ?_, fun i hi hi' => (h3 i hi).2 hi'⟩
  intro p hp
  obtain ⟨i, hi, rfl⟩ := List.getElem_of_mem hp
  exact (h3 i hi).1

theorem OrdOps.Models.affineSpanDependent (ident : Nat) {points : List (Vec α)} (hd : sp.dim = d + 1) (hp : ∀ p ∈ points, p.In sp) :
    ∃ e, S.affineSpanDependent ident sp points = some e ∧ e.Valid v d ∧ e.ambient = sp ∧ e.embedded.ident = ident ∧
      _root_.affineSpan K (pointSet v d e.points) = _root_.affineSpan K (pointSet v d points) := by
  cases points with
  | nil =>
    obtain ⟨e, pts, e1, e2, e3, e4, e5, -⟩ := (h.spanNew ident hd (points := []) (by simp)).1 indep_nil
    refine ⟨e, ?_, e2, e3, e4, by rw [e5]⟩
    simp only [OrdOps.affineSpanDependent, OrdOps.emptySub, e1, Option.bind_eq_bind, Option.bind_some]
    rfl
  | cons root ps =>
    have hr := hp root (by simp)
    obtain ⟨span, s1, s2, s3, s4⟩ := h.subAll hd hr (fun q hq => hp q (by simp [hq]) : ∀ q ∈ ps, q.In sp)
    obtain ⟨mat, m1, m2⟩ := construct_denotes (v := v) S.zero (r := d) (c := span.length)
      (mk := fun r c => (span[c]?).bind fun p => p.coordinate r) (A := (Matrix.of (pointsOf v d span)).transpose) (by
        intro i j
        rw [List.getElem?_eq_getElem j.2]
        exact (s3 _ (List.getElem_mem j.2)).coordinate hd i)
    obtain ⟨res, H, U, t1, t2, t3, t4, t5, t6, t7, t8⟩ := h.bez.rowHermite m2
    have hU : IsUnit U.det := by rw [t5]; exact t6
    obtain ⟨c1, c2⟩ := pivot_cols t7 t4 hU
    have c3 := t7.cols_indep t4
    simp only [Matrix.transpose_transpose] at c2 c3
    obtain ⟨sp', a1, a2, a3⟩ := mapM_fin (l := res.pivs) (f := fun i => span[i]?)
      (P := fun k p => p.In sp ∧ ∀ hk : k < res.pivs.length, span[res.pivs[k]]? = some p) (by
        intro k hk
        have hlt : res.pivs[k] < span.length := t7.lt _ (List.getElem_mem hk)
        exact ⟨_, List.getElem?_eq_getElem hlt, s3 _ (List.getElem_mem _), fun _ => List.getElem?_eq_getElem hlt⟩)
    have a4 : ∀ p ∈ sp', p.In sp := by
      intro p hp
      obtain ⟨i, hi, rfl⟩ := List.getElem_of_mem hp
      exact (a3 i hi).1
    obtain ⟨pts, b1, b2, b3, b4⟩ := h.addAll hd hr a4
    have hlen : pts.length = res.pivs.length := b2.trans a2
    have hval : ∀ (i : Nat) (hi : i < pts.length), pts[i].val v d - root.val v d =
        (span[res.pivs[i]'(by omega)]'(t7.lt _ (List.getElem_mem _))).val v d := by
      intro i hi
      rw [b4 i hi (by omega)]
      have h1 := (a3 i (by omega)).2 (by omega)
      rw [List.getElem?_eq_getElem (t7.lt _ (List.getElem_mem _))] at h1
      rw [← Option.some.inj h1]
      simp
    have hfun : (fun i : Fin pts.length => pts[i].val v d - root.val v d) =
        (fun (i : Fin res.pivs.length) => Matrix.of (pointsOf v d span) ⟨res.pivs[i], t7.lt _ (List.getElem_mem _)⟩) ∘ finCongr hlen := by
      funext i
      exact hval i i.2
    have hind : AffineIndependent K (pointsOf v d (root :: pts)) := by
      rw [indep_cons, hfun]
      exact (linearIndependent_equiv (finCongr hlen)).2 c3
    obtain ⟨e, ps', e1, e2, e3, e4, e5, -⟩ := (h.spanNew ident hd (points := root :: pts) (by
      intro p hp'
      rcases List.mem_cons.1 hp' with rfl | hp'
      · exact hr
      · exact b3 p hp')).1 hind
    refine ⟨e, ?_, e2, e3, e4, ?_⟩
    · simp only [OrdOps.affineSpanDependent, Space.linDim_eq hd, s1, m1, t1, a1, Option.bind_eq_bind, Option.bind_some,
        OrdOps.subNew, b1, e1]
      rfl
    · rw [e5]
      ext x
      rw [mem_span_cons, mem_span_cons, hfun]
      have e6 : Set.range ((fun (i : Fin res.pivs.length) => Matrix.of (pointsOf v d span) ⟨res.pivs[i], t7.lt _ (List.getElem_mem _)⟩) ∘ finCongr hlen) =
          Set.range (fun (i : Fin res.pivs.length) => Matrix.of (pointsOf v d span) ⟨res.pivs[i], t7.lt _ (List.getElem_mem _)⟩) :=
        (finCongr hlen).surjective.range_comp _
      rw [e6, c2]
      have e7 : Set.range (Matrix.of (pointsOf v d span)) = Set.range fun i : Fin ps.length => ps[i].val v d - root.val v d := by
        ext y
        constructor
        · rintro ⟨i, rfl⟩
          exact ⟨⟨i, by have := i.2; omega⟩, (s4 i i.2 (by have := i.2; omega)).symm⟩
        · rintro ⟨i, rfl⟩
          exact ⟨⟨i, by have := i.2; omega⟩, s4 i (by have := i.2; omega) i.2⟩
      rw [e7]

end

end Verif.Geometry
