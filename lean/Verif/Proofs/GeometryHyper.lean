import Verif.Proofs.GeometrySpan

/-! # Subspaces as intersections of hyperplanes, extending a subspace by a point -/

namespace Verif.Geometry

open Verif.Rings

section Math
variable {K : Type} [Field K]

/-- Removing points one at a time from an affine basis cuts out the span of the points that are never removed. -/
theorem inf_span_remove {ι : Type} [Fintype ι] {d : Nat} {p : ι → Fin d → K} (hp : AffineIndependent K p) (hc : Fintype.card ι = d + 1)
    (T : Finset ι) (x : Fin d → K) :
    (∀ t ∈ T, x ∈ affineSpan K (p '' (Set.univ \ {t}))) ↔ x ∈ affineSpan K (p '' {i | i ∉ T}) := by
  classical
  induction T using Finset.induction_on with
  | empty =>
    simp only [Finset.notMem_empty, false_imp_iff, implies_true, not_false_eq_true, Set.setOf_true, Set.image_univ, true_iff]
    rw [hp.affineSpan_eq_top_iff_card_eq_finrank_add_one.2 (by rw [hc, Module.finrank_fin_fun])]
    exact AffineSubspace.mem_top K _ x
  | insert t T ht ih =>
    rw [Finset.forall_mem_insert, ih, ← AffineSubspace.mem_inf_iff, hp.inf_affineSpan_eq_affineSpan_inter]
    have : (Set.univ \ {t}) ∩ {i | i ∉ T} = {i | i ∉ insert t T} := by
      ext i
      simp
    rw [this]

/-- the coordinates of the point number `i` of the affine basis `0, e_0, e_1, ..` -/
def basisPt (K : Type) [Field K] (n i : Nat) : Fin n → K := fun j => if i = (j : Nat) + 1 then 1 else 0

theorem basisPt_zero (n : Nat) : basisPt K n 0 = 0 := by
  funext j
  simp [basisPt]

theorem basisPt_succ {n : Nat} (i : Fin n) : basisPt K n (i + 1) = Pi.single i 1 := by
  funext j
  simp only [basisPt, Pi.single_apply, Nat.add_right_cancel_iff, Fin.ext_iff]
  simp only [eq_comm]

/-- an affine map is determined by the images of the basis points -/
theorem affineMap_ext {n d : Nat} {f g : (Fin n → K) →ᵃ[K] (Fin d → K)} (h0 : f 0 = g 0) (h1 : ∀ i, f (Pi.single i 1) = g (Pi.single i 1)) : f = g := by
  have hl : f.linear = g.linear := by
    apply (Pi.basisFun K (Fin n)).ext
    intro i
    rw [Pi.basisFun_apply]
    have e1 := f.linearMap_vsub (Pi.single i 1) 0
    have e2 := g.linearMap_vsub (Pi.single i 1) 0
    rw [vsub_eq_sub, sub_zero] at e1 e2
    rw [e1, e2, h0, h1]
  ext1 x
  have e1 := f.linearMap_vsub x 0
  have e2 := g.linearMap_vsub x 0
  rw [hl] at e1
  rw [e1, h0] at e2
  simpa using e2

end Math

section
variable {α K : Type} [Field K] {v : α → K} {d : Nat} {sp : Space}

theorem mapM_eraseIdx {β γ : Type} {f : β → Option γ} {l : List β} {l' : List γ} (e : l.mapM f = some l') (i : Nat) :
    (l.eraseIdx i).mapM f = some (l'.eraseIdx i) := by
  induction l generalizing l' i with
  | nil => simp at e; subst e; simp
  | cons a l ih =>
    rw [List.mapM_cons] at e
    cases ha : f a with
    | none => rw [ha] at e; simp at e
    | some b =>
      cases hl : l.mapM f with
      | none => rw [ha, hl] at e; simp at e
      | some m =>
        rw [ha, hl] at e
        simp at e
        subst e
        cases i with
        | zero => simpa using hl
        | succ i =>
          rw [List.eraseIdx_cons_succ, List.eraseIdx_cons_succ, List.mapM_cons, ha, ih hl]
          rfl

theorem mapM_getElem {β γ : Type} {f : β → Option γ} {l : List β} {l' : List γ} (e : l.mapM f = some l') {i : Nat} (hi : i < l.length)
    (hi' : i < l'.length) : f l[i] = some l'[i] := by
  induction l generalizing l' i with
  | nil => simp at hi
  | cons a l ih =>
    rw [List.mapM_cons] at e
    cases ha : f a with
    | none => rw [ha] at e; simp at e
    | some b =>
      cases hl : l.mapM f with
      | none => rw [ha, hl] at e; simp at e
      | some m =>
        rw [ha, hl] at e
        simp at e
        subst e
        cases i with
        | zero => simpa using ha
        | succ i => simpa using ih hl (by simpa using hi) (by simpa using hi')

theorem image_erase {l : List (Vec α)} {k : Nat} (hk : k < l.length) :
    pointsOf v d l '' (Set.univ \ {⟨k, hk⟩}) = pointSet v d (l.eraseIdx k) := by
  ext x
  constructor
  · rintro ⟨i, hi, rfl⟩
    refine ⟨l[i], ?_, rfl⟩
    rw [List.mem_eraseIdx_iff_getElem]
    exact ⟨i, i.2, by intro e; exact hi.2 (Fin.ext e), rfl⟩
  · rintro ⟨p, hp, rfl⟩
    rw [List.mem_eraseIdx_iff_getElem] at hp
    obtain ⟨i, hi, hik, rfl⟩ := hp
    exact ⟨⟨i, hi⟩, ⟨trivial, fun e => hik (by simpa using e)⟩, rfl⟩

end

section
variable {α K : Type} [Field K] [LinearOrder K] [IsStrictOrderedRing K] {S : OrdOps α} {v : α → K} (h : S.Models v) {d : Nat} {sp : Space}
include h

omit [IsStrictOrderedRing K] in
/-- the unit vectors that extend independent vectors to a basis -/
theorem OrdOps.Models.extensionUnits {span : List (Vec α)} (hd : sp.dim = d + 1) (hs : ∀ p ∈ span, p.In sp)
    (hi : LinearIndependent K (pointsOf v d span)) :
    ∃ ext, S.extensionUnits d span = some ext ∧ span.length + ext.length = d ∧ (∀ k ∈ ext, k < d) ∧
      LinearIndependent K (fun i : Fin (span.map (Vec.val v d) ++ ext.map fun k => fun l : Fin d => if (l : Nat) = k then (1 : K) else 0).length =>
        (span.map (Vec.val v d) ++ ext.map fun k => fun l : Fin d => if (l : Nat) = k then (1 : K) else 0)[i]) := by
  have h0 := h.toDomain.toRing.toSemi.zero
  have h1 := h.toDomain.toRing.toSemi.one
  set n := span.length with hn
  let A : Matrix (Fin d) (Fin (n + d)) K := Matrix.of fun r c =>
    if hc : (c : Nat) < n then (span[(c : Nat)]'hc).val v d r else if (r : Nat) = c - n then 1 else 0
  obtain ⟨mat, m1, m2⟩ := construct_denotes (v := v) S.zero (r := d) (c := n + d) (mk := S.extendEntry span) (A := A) (by
    intro r c
    unfold OrdOps.extendEntry
    by_cases hc : (c : Nat) < n
    · rw [if_pos hc, List.getElem?_eq_getElem hc]
      obtain ⟨x, x1, x2⟩ := (hs _ (List.getElem_mem hc)).coordinate (v := v) hd r
      refine ⟨x, x1, ?_⟩
      rw [x2]
      simp [A, hc]
    · rw [if_neg hc]
      refine ⟨_, rfl, ?_⟩
      simp only [A, Matrix.of_apply, dif_neg hc]
      by_cases hr : (r : Nat) = c - n
      · rw [if_pos hr, if_pos hr, h1]
      · rw [if_neg hr, if_neg hr, h0])
  obtain ⟨res, H, U, t1, t2, t3, t4, t5, t6, t7, t8⟩ := h.bez.rowHermite m2
  have hU : IsUnit U.det := by rw [t5]; exact t6
  obtain ⟨c1, c2⟩ := pivot_cols t7 t4 hU
  have c3 := t7.cols_indep t4
  have hcol1 : ∀ (c : Nat) (hc : c < n + d) (hcn : c < n), A.transpose ⟨c, hc⟩ = (span[c]'hcn).val v d := by
    intro c hc hcn
    funext r
    simp [A, Matrix.transpose_apply, hcn]
  have hcol2 : ∀ (c : Nat) (hc : c < n + d) (hcn : n ≤ c), A.transpose ⟨c, hc⟩ = fun r : Fin d => if (r : Nat) = c - n then 1 else 0 := by
    intro c hc hcn
    funext r
    simp [A, Matrix.transpose_apply, Nat.not_lt.2 hcn]
  have hrank : A.rank = d := by
    apply le_antisymm
    · have := A.rank_le_height
      simpa using this
    · rw [Matrix.rank_eq_finrank_span_cols]
      have htop : Submodule.span K (Set.range A.col) = ⊤ := by
        rw [eq_top_iff, ← (Pi.basisFun K (Fin d)).span_eq]
        apply Submodule.span_mono
        rintro _ ⟨i, rfl⟩
        refine ⟨⟨n + i, by have := i.2; omega⟩, ?_⟩
        have := hcol2 (n + i) (by have := i.2; omega) (by omega)
        refine Eq.trans this ?_
        funext r
        rw [Pi.basisFun_apply, Pi.single_apply]
        simp [Fin.ext_iff]
      rw [htop]
      simp
  rw [hrank] at c1
  have c4 := pivot_first t7 t4 hU (a := n) (by omega) (by
    have e : (fun i : Fin n => A.transpose (Fin.castLE (by omega) i)) = pointsOf v d span := by
      funext i
      exact hcol1 i (by have := i.2; omega) i.2
    rw [e]
    exact hi)
  have hpiv : ∀ i, i < n → res.pivs[i]? = some i := by
    intro i hi'
    rw [c4, List.getElem?_append_left (by simpa using hi')]
    rw [List.getElem?_range hi']
  have hpiv2 : ∀ (i p : Nat), n ≤ i → res.pivs[i]? = some p → n ≤ p := by
    intro i p hi' hp
    have := t7.le_piv hp
    omega
  have hnd : n ≤ d := by
    have e := congrArg List.length c4
    rw [List.length_append, List.length_range, c1] at e
    omega
  obtain ⟨ext, e1, e2, e3⟩ := mapM_fin (l := List.range' n (d - n))
    (f := fun i => (res.pivs[i]?).bind fun p => if n ≤ p then some (p - n) else none)
    (P := fun j k => k < d ∧ res.pivs[n + j]? = some (n + k)) (by
      intro j hj
      have hj' : n + j < res.pivs.length := by simp at hj; omega
      have hg : res.pivs[n + j]? = some res.pivs[n + j] := List.getElem?_eq_getElem hj'
      have hle := hpiv2 _ _ (by omega) hg
      have hlt := t7.lt _ (List.getElem_mem hj')
      refine ⟨res.pivs[n + j] - n, ?_, by omega, by rw [hg]; congr 1; omega⟩
      rw [List.getElem_range', Nat.one_mul, hg]
      simp [hle])
  have hel : ext.length = d - n := by simpa using e2
  refine ⟨ext, ?_, by omega, ?_, ?_⟩
  · unfold OrdOps.extensionUnits
    rw [← hn, m1]
    simp only [Option.bind_eq_bind, Option.bind_some, t1, c1, beq_self_eq_true, assertThat, if_true]
    have hall : ((List.range n).all fun i => res.pivs[i]? == some i) = true := by
      rw [List.all_eq_true]
      intro i hi'
      rw [hpiv i (List.mem_range.1 hi')]
      simp
    rw [if_pos hall]
    exact e1
  · intro k hk
    obtain ⟨j, hj, rfl⟩ := List.getElem_of_mem hk
    exact (e3 j hj).1
  · have hlen : (span.map (Vec.val v d) ++ ext.map fun k => fun l : Fin d => if (l : Nat) = k then (1 : K) else 0).length = res.pivs.length := by
      simp only [List.length_append, List.length_map]
      omega
    refine (linearIndependent_equiv' (finCongr hlen) ?_).2 c3
    funext i
    simp only [Function.comp_apply, Fin.getElem_fin, finCongr_apply, Fin.val_cast]
    by_cases hin : (i : Nat) < n
    · rw [List.getElem_append_left (by simpa using hin), List.getElem_map]
      have hp := hpiv i hin
      rw [List.getElem?_eq_getElem (by have := i.2; omega)] at hp
      have hp' := Option.some.inj hp
      simp only [hp']
      exact hcol1 _ _ hin
    · rw [List.getElem_append_right (by simp; omega), List.getElem_map]
      have hi2 := i.2
      have hj : (i : Nat) - n < ext.length := by omega
      have hp := (e3 (i - n) hj).2
      rw [show n + ((i : Nat) - n) = i by omega, List.getElem?_eq_getElem (by omega)] at hp
      have hp' := Option.some.inj hp
      simp only [hp', List.length_map]
      rw [hcol2 _ _ (by omega)]
      funext r
      rw [show n + ext[(i : Nat) - n] - n = ext[(i : Nat) - n] by omega]

omit [IsStrictOrderedRing K] in
theorem OrdOps.Models.rootPlusUnit {root : Vec α} (hd : sp.dim = d + 1) (hr : root.In sp) (k : Nat) :
    ∃ p, S.rootPlusUnit sp root k = some p ∧ p.In sp ∧ p.val v d = root.val v d + fun l : Fin d => if (l : Nat) = k then 1 else 0 := by
  apply Vec.construct_some v hd
  intro i
  obtain ⟨x, x1, x2⟩ := hr.coordinate (v := v) hd i
  refine ⟨S.add x (if (i : Nat) = k then S.one else S.zero), by rw [x1]; rfl, ?_⟩
  rw [h.toDomain.toRing.toSemi.add, x2, Pi.add_apply]
  congr 1
  by_cases hk : (i : Nat) = k
  · rw [if_pos hk, if_pos hk, h.toDomain.toRing.toSemi.one]
  · rw [if_neg hk, if_neg hk, h.toDomain.toRing.toSemi.zero]

/-- `as_hyperplane_intersection` -/
theorem EmbSub.Valid.asHyperplanes {e : EmbSub α} {n : Nat} (he : e.Valid v d) (hn : e.points.length = n + 1) :
    ∃ hs, S.asHyperplanes e = some (some hs) ∧ n + hs.length = d ∧ (∀ o ∈ hs, o.Valid S v d e.ambient) ∧
      ∀ x : Fin d → K, x ∈ affineSpan K (pointSet v d e.points) ↔ ∀ o ∈ hs, x ∈ o.simplex.span v d := by
  obtain ⟨root, span, r1, r2, r3, r4, hl, r5⟩ := he.rootAndSpan h hn
  have hd := he.dim
  obtain ⟨amb, emb, points⟩ := e
  obtain ⟨pts, rfl⟩ : ∃ pts, points = root :: pts := by
    cases points with
    | nil => simp at hn
    | cons p ps => simp only [List.getElem?_cons_zero, Option.some.injEq] at r2; exact ⟨ps, by rw [r2]⟩
  simp only at hd r1 r3 r4 hn r5
  have hpl : pts.length = n := by simpa using hn
  have hspan : pointsOf v d span = (fun i : Fin pts.length => pts[i].val v d - root.val v d) ∘ finCongr (hl.trans hpl.symm) := by
    funext i
    have := r5 ⟨i, by have := i.2; omega⟩
    exact this
  have hli : LinearIndependent K (pointsOf v d span) := by
    rw [hspan]
    exact (linearIndependent_equiv _).2 ((indep_cons root pts).1 he.points.indep)
  obtain ⟨ext, x1, x2, x3, x4⟩ := h.extensionUnits hd r4 hli
  obtain ⟨sps, s1, s2, s3, s4⟩ := h.addAll hd r3 r4
  obtain ⟨us, u1, u2, u3⟩ := mapM_fin (l := ext) (f := S.rootPlusUnit amb root)
    (P := fun j p => p.In amb ∧ ∀ hj : j < ext.length, p.val v d = root.val v d + fun l : Fin d => if (l : Nat) = ext[j] then 1 else 0) (by
      intro j hj
      obtain ⟨p, p1, p2, p3⟩ := h.rootPlusUnit hd r3 ext[j]
      exact ⟨p, p1, p2, fun _ => p3⟩)
  have hQ : Independent v d amb (root :: (sps ++ us)) := by
    refine ⟨?_, ?_⟩
    · intro p hp
      rcases List.mem_cons.1 hp with rfl | hp
      · exact r3
      · rcases List.mem_append.1 hp with hp | hp
        · exact s3 p hp
        · obtain ⟨i, hi, rfl⟩ := List.getElem_of_mem hp
          exact (u3 i hi).1
    · rw [indep_cons]
      have hlen : (sps ++ us).length = (span.map (Vec.val v d) ++ ext.map fun k => fun l : Fin d => if (l : Nat) = k then (1 : K) else 0).length := by
        simp [s2, u2]
      refine (linearIndependent_equiv' (finCongr hlen) ?_).2 x4
      funext i
      simp only [Function.comp_apply, Fin.getElem_fin, finCongr_apply, Fin.val_cast]
      by_cases hin : (i : Nat) < span.length
      · rw [List.getElem_append_left (by simpa using hin), List.getElem_append_left (by omega), List.getElem_map, s4 i (by omega) hin]
        simp
      · have hi2 : (i : Nat) < sps.length + us.length := by have := i.2; simpa using this
        rw [List.getElem_append_right (by simp; omega), List.getElem_append_right (by omega), List.getElem_map]
        simp only [s2, List.length_map]
        rw [(u3 ((i : Nat) - span.length) (by omega)).2 (by omega)]
        simp
  have hQl : (root :: (sps ++ us)).length = d + 1 := by simp [s2, u2]; omega
  have key : ∀ i, i < ext.length → ∃ o, S.hyperplaneOf amb root span ext i = some o ∧ o.Valid S v d amb ∧
      o.simplex.points.Perm ((root :: (sps ++ us)).eraseIdx (n + 1 + i)) := by
    intro i hi
    have hk : n + 1 + i < (root :: (sps ++ us)).length := by rw [hQl]; omega
    have hu : i < us.length := by omega
    have hget : (root :: (sps ++ us))[n + 1 + i] = us[i] := by
      have e1 : n + 1 + i = (n + i) + 1 := by omega
      simp only [e1, List.getElem_cons_succ]
      rw [List.getElem_append_right (by omega)]
      congr 1
      omega
    have herase : root :: sps ++ us.eraseIdx i = (root :: (sps ++ us)).eraseIdx (n + 1 + i) := by
      rw [← List.cons_append, List.eraseIdx_append_of_length_le (by simp; omega)]
      congr 2
      simp
      omega
    have hind := hQ.sublist (List.eraseIdx_sublist _ (n + 1 + i))
    have hnot := hQ.notMem_erase hk
    have hin := hQ.mem _ (List.getElem_mem hk)
    rw [hget] at hnot hin
    have hlen : ((root :: (sps ++ us)).eraseIdx (n + 1 + i)).length = d := by rw [List.length_eraseIdx, if_pos hk, hQl]; rfl
    rcases h.newPositive hd hind.mem hin with ⟨h1, h2, h3, o, o1, o2, o3, o4⟩ | ⟨h1, h2⟩
    · refine ⟨o, ?_, o2, o3⟩
      have hk' : ext[i]? = some ext[i] := List.getElem?_eq_getElem hi
      have hunit : S.rootPlusUnit amb root ext[i] = some us[i] := by
        have hh := mapM_getElem u1 hi hu
        exact hh
      unfold OrdOps.hyperplaneOf
      simp only [s1, mapM_eraseIdx u1 i, hk', hunit, Option.bind_eq_bind, Option.bind_some, herase, o1]
      rfl
    · exact absurd ⟨hlen, hind.indep, hnot⟩ h1
  obtain ⟨hs, g1, g2, g3⟩ := mapM_fin (l := List.range ext.length) (f := S.hyperplaneOf amb root span ext)
    (P := fun i o => o.Valid S v d amb ∧ o.simplex.points.Perm ((root :: (sps ++ us)).eraseIdx (n + 1 + i))) (by
      intro i hi
      have hi' : i < ext.length := by simpa using hi
      simpa using key i hi')
  have hhl : hs.length = ext.length := by simpa using g2
  refine ⟨hs, ?_, by omega, ?_, ?_⟩
  · unfold OrdOps.asHyperplanes
    simp only [r1, Option.bind_eq_bind, Option.bind_some, Space.linDim_eq hd, x1, g1]
    have hass : (decide (span.length ≤ d) && hs.length == d - span.length) = true := by
      rw [Bool.and_eq_true, decide_eq_true_iff, beq_iff_eq]
      omega
    simp only [assertThat, hass, if_true, Option.bind_some]
  · intro o ho
    obtain ⟨i, hi, rfl⟩ := List.getElem_of_mem ho
    exact (g3 i hi).1
  · intro x
    have hT := inf_span_remove hQ.indep (by rw [Fintype.card_fin, hQl]) (Finset.univ.filter fun i : Fin (root :: (sps ++ us)).length => n + 1 ≤ (i : Nat)) x
    have e1 : pointsOf v d (root :: (sps ++ us)) '' {i | i ∉ Finset.univ.filter fun i : Fin (root :: (sps ++ us)).length => n + 1 ≤ (i : Nat)} =
        pointSet v d (root :: sps) := by
      ext y
      constructor
      · rintro ⟨i, hi, rfl⟩
        have hi' : (i : Nat) < n + 1 := by simpa using hi
        refine ⟨(root :: (sps ++ us))[i], ?_, rfl⟩
        rw [List.mem_iff_getElem]
        refine ⟨i, by simp; omega, ?_⟩
        simp only [Fin.getElem_fin]
        rw [← List.getElem_append_left (bs := us)]
        rfl
      · rintro ⟨p, hp, rfl⟩
        obtain ⟨i, hi, rfl⟩ := List.getElem_of_mem hp
        have hi' : i < n + 1 := by simp at hi; omega
        refine ⟨⟨i, by rw [hQl]; omega⟩, by simpa using hi', ?_⟩
        unfold pointsOf
        simp only [Fin.getElem_fin]
        congr 1
        rw [← List.getElem_append_left (bs := us) hi]
        rfl
    rw [e1] at hT
    have e2 : x ∈ affineSpan K (pointSet v d (root :: pts)) ↔ x ∈ affineSpan K (pointSet v d (root :: sps)) := by
      rw [mem_span_cons, mem_span_cons]
      have e3 : (Set.range fun i : Fin pts.length => pts[i].val v d - root.val v d) = Set.range fun i : Fin sps.length => sps[i].val v d - root.val v d := by
        ext y
        constructor
        · rintro ⟨i, rfl⟩
          have hi2 := i.2
          refine ⟨⟨i, by omega⟩, ?_⟩
          simp only [Fin.getElem_fin]
          rw [s4 i (by omega) (by omega)]
          have := r5 ⟨i, by omega⟩
          simpa using this
        · rintro ⟨i, rfl⟩
          have hi2 := i.2
          refine ⟨⟨i, by omega⟩, ?_⟩
          simp only [Fin.getElem_fin]
          rw [s4 i (by omega) (by omega)]
          have := r5 ⟨i, by omega⟩
          simpa using this.symm
      rw [e3]
    change x ∈ affineSpan K (pointSet v d (root :: pts)) ↔ _
    rw [e2, ← hT]
    constructor
    · intro hall o ho
      obtain ⟨i, hi, rfl⟩ := List.getElem_of_mem ho
      have hk : n + 1 + i < (root :: (sps ++ us)).length := by rw [hQl]; omega
      have := hall ⟨n + 1 + i, hk⟩ (Finset.mem_filter.2 ⟨Finset.mem_univ _, Nat.le_add_right _ _⟩)
      rw [image_erase hk] at this
      unfold Simplex.span
      rw [pointSet_perm (g3 i hi).2]
      exact this
    · intro hall t ht
      have ht' : n + 1 ≤ (t : Nat) := by simpa using ht
      have ht2 : (t : Nat) < d + 1 := lt_of_lt_of_eq t.2 hQl
      have hi : (t : Nat) - (n + 1) < hs.length := by omega
      have := hall _ (List.getElem_mem hi)
      unfold Simplex.span at this
      rw [pointSet_perm (g3 _ hi).2] at this
      have hk4 : n + 1 + ((t : Nat) - (n + 1)) < (root :: (sps ++ us)).length := lt_of_lt_of_eq (by omega) hQl.symm
      have e4 : (⟨n + 1 + ((t : Nat) - (n + 1)), hk4⟩ : Fin (root :: (sps ++ us)).length) = t := Fin.ext (by simp; omega)
      rw [← image_erase hk4, e4] at this
      exact this

/-- `extend_dimension_by_point_unsafe` -/
theorem EmbSub.Valid.extendByPoint {e : EmbSub α} {n : Nat} (ident : Nat) (he : e.Valid v d) (hn : e.points.length = n) {pt : Vec α} (hp : pt.In e.ambient)
    (hnot : pt.val v d ∉ affineSpan K (pointSet v d e.points)) :
    ∃ e1 e2 last, S.extendByPoint ident e pt = some (e1, e2, last) ∧ e1.Valid v n ∧ e2.Valid v d ∧
      e1.embedded = e.embedded ∧ e1.ambient = e2.embedded ∧ e2.ambient = e.ambient ∧ e1.ambient.ident = ident ∧
      e2.points = e.points ++ [pt] ∧ last.In e2.embedded ∧
      (last.val v n = fun j : Fin n => if n = (j : Nat) + 1 then 1 else 0) ∧
      ∀ (i : Nat) (hi : i < e1.points.length), e1.points[i].val v n = fun j : Fin n => if i = (j : Nat) + 1 then 1 else 0 := by
  have hu := (he.unembed_none h hp).2.2 hnot
  have hemb : e.embedded.dim = n := by rw [he.embedded, hn]
  obtain ⟨pts, p1, p2, p3, p4⟩ := h.basisPoints (sp := ⟨n + 1, ident⟩) (n := n) (m := n) rfl (by omega)
  obtain ⟨last, l1, l2, l3⟩ := Vec.construct_some (sp := ⟨n + 1, ident⟩) v (f := fun i => some (if i + 1 = n then S.one else S.zero))
    (x := fun j : Fin n => if n = (j : Nat) + 1 then 1 else 0) rfl (by
      intro i
      refine ⟨_, rfl, ?_⟩
      by_cases hk : (i : Nat) + 1 = n
      · rw [if_pos hk, if_pos hk.symm, h.toDomain.toRing.toSemi.one]
      · rw [if_neg hk, if_neg (fun e => hk e.symm), h.toDomain.toRing.toSemi.zero])
  refine ⟨⟨⟨n + 1, ident⟩, e.embedded, pts⟩, ⟨e.ambient, ⟨n + 1, ident⟩, e.points ++ [pt]⟩, last, ?_, ⟨rfl, ⟨p3, ?_⟩, by rw [hemb]; exact p2.symm⟩,
    ⟨he.dim, ⟨?_, ?_⟩, by simp [hn]⟩, rfl, rfl, rfl, rfl, rfl, l2, l3, p4⟩
  · unfold OrdOps.extendByPoint
    simp only [hp.space, assertThat, decide_true, if_true, hu, Option.bind_eq_bind, Option.bind_some, Option.isNone_none, hemb, p1, l1]
  · -- the points `0, e_0, ..` are independent
    cases pts with
    | nil => exact indep_nil
    | cons p ps =>
      rw [indep_cons]
      have hps : ps.length < n := by simp at p2; omega
      have hval : (fun i : Fin ps.length => ps[i].val v n - p.val v n) = (Pi.basisFun K (Fin n)) ∘ Fin.castLE hps.le := by
        funext i
        have h1 := p4 (i + 1) (by simp)
        have h2 := p4 0 (by simp)
        simp only [List.getElem_cons_succ, List.getElem_cons_zero] at h1 h2
        simp only [Fin.getElem_fin, Function.comp_apply, Pi.basisFun_apply]
        rw [h1, h2]
        funext j
        simp only [Pi.sub_apply, Pi.single_apply, Nat.add_right_cancel_iff]
        rw [if_neg (c := 0 = (j : Nat) + 1) (by omega), sub_zero]
        have e5 : ((i : Nat) = (j : Nat)) ↔ j = Fin.castLE hps.le i := by
          rw [Fin.ext_iff]
          exact eq_comm
        simp only [e5]
      rw [hval]
      exact (Pi.basisFun K (Fin n)).linearIndependent.comp _ (Fin.castLE_injective hps.le)
  · intro q hq
    rcases List.mem_append.1 hq with hq | hq
    · exact he.points.mem q hq
    · rw [List.mem_singleton.1 hq]; exact hp
  · -- a point outside the span
    have hall : ∀ q ∈ pt :: e.points, q.In e.ambient := by
      intro q hq
      rcases List.mem_cons.1 hq with rfl | hq
      · exact hp
      · exact he.points.mem q hq
    have hperm : (e.points ++ [pt]).Perm (pt :: e.points) := List.perm_append_comm
    refine (Independent.perm (sp := e.ambient) ⟨hall, ?_⟩ hperm).indep
    refine AffineIndependent.affineIndependent_of_notMem_span (i := (0 : Fin (e.points.length + 1))) ?_ ?_
    · rw [← affineIndependent_equiv (finSuccAboveEquiv (0 : Fin (e.points.length + 1)))]
      exact he.points.indep
    · have e6 : pointsOf v d (pt :: e.points) '' {x | x ≠ (0 : Fin (e.points.length + 1))} = pointSet v d e.points := by
        rw [← range_pointsOf]
        ext y
        constructor
        · rintro ⟨x, hx, rfl⟩
          obtain ⟨z, rfl⟩ := Fin.exists_succ_eq.2 hx
          exact ⟨z, rfl⟩
        · rintro ⟨x, rfl⟩
          exact ⟨Fin.succ x, Fin.succ_ne_zero x, rfl⟩
      rw [e6]
      exact hnot

/-- The embeddings of an extended subspace: the composition is the old embedding, and the last point goes to the new point. -/
theorem EmbSub.Valid.extendByPoint_maps {e e1 e2 : EmbSub α} {n : Nat} {pt last : Vec α} (he : e.Valid v d) (hn : e.points.length = n)
    (he1 : e1.Valid v n) (he2 : e2.Valid v d) (h1 : e1.embedded = e.embedded) (h2 : e1.ambient = e2.embedded)
    (h4 : e2.points = e.points ++ [pt]) (hl : last.In e2.embedded) (hlv : last.val v n = basisPt K n n)
    (hb : ∀ (i : Nat) (hi : i < e1.points.length), e1.points[i].val v n = basisPt K n i) :
    (∃ q, S.embedPoint e2 last = some q ∧ q.val v d = pt.val v d) ∧
    ∀ x : Vec α, x.In e.embedded → ∃ w y z, S.embedPoint e x = some w ∧ S.embedPoint e1 x = some y ∧ S.embedPoint e2 y = some z ∧ z.val v d = w.val v d := by
  have hn2 : e2.points.length = n + 1 := by rw [h4]; simp [hn]
  have hn1 : e1.points.length = n := by rw [← he1.embedded, h1, he.embedded, hn]
  obtain ⟨f2, -, -, b3, b4, b5, -⟩ := he2.embed h hn2
  have hget : ∀ (i : Nat) (hi : i < n) (hi' : i < e2.points.length), e2.points[i] = e.points[i]'(by omega) := by
    intro i hi hi'
    simp only [h4]
    rw [List.getElem_append_left (by omega)]
  have hlast : ∀ (hi' : n < e2.points.length), e2.points[n] = pt := by
    intro hi'
    simp only [h4]
    rw [List.getElem_append_right (by omega)]
    simp
  constructor
  · obtain ⟨q, q1, q2, q3⟩ := b5 last hl
    refine ⟨q, q1, ?_⟩
    rw [q3, hlv]
    cases n with
    | zero => rw [basisPt_zero, b3, hlast]
    | succ m =>
      have e5 : basisPt K (m + 1) (m + 1) = Pi.single (Fin.last m) 1 := basisPt_succ (Fin.last m)
      rw [e5, b4]
      simp only [Fin.val_last]
      rw [hlast]
  · intro x hx
    cases n with
    | zero =>
      exact absurd hx.length (by rw [he.embedded, hn]; omega)
    | succ m =>
      obtain ⟨f, -, -, a3, a4, a5, -⟩ := he.embed h hn
      obtain ⟨f1, -, -, c3, c4, c5, -⟩ := he1.embed h hn1
      have hcomp : f2.comp f1 = f := by
        apply affineMap_ext
        · rw [AffineMap.comp_apply, c3, hb, basisPt_zero, b3, a3, hget 0 (by omega)]
        · intro i
          have e5 : basisPt K (m + 1) ((i : Nat) + 1) = Pi.single i.castSucc 1 := basisPt_succ i.castSucc
          rw [AffineMap.comp_apply, c4, hb, a4, e5, b4]
          simp only [Fin.val_castSucc]
          rw [hget _ (by simp)]
      obtain ⟨w, w1, w2, w3⟩ := a5 x hx
      obtain ⟨y, y1, y2, y3⟩ := c5 x (h1 ▸ hx)
      obtain ⟨z, z1, z2, z3⟩ := b5 y (h2 ▸ y2)
      refine ⟨w, y, z, w1, y1, z1, ?_⟩
      rw [z3, y3, w3, ← hcomp]
      rfl

end

end Verif.Geometry
