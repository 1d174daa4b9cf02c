import Verif.Proofs.GeometryOriented

/-! # Embedded affine subspaces -/

namespace Verif.Geometry

open Verif.Rings

section Math
variable {K : Type} [Field K]

theorem exists_affMap {n d : Nat} {p : Fin (n + 1) → Fin d → K} (hp : AffineIndependent K p) :
    ∃ f : (Fin n → K) →ᵃ[K] (Fin d → K), Function.Injective f ∧ Set.range f = affineSpan K (Set.range p) ∧ f 0 = p 0 ∧
      (∀ i, f (Pi.single i 1) = p i.succ) ∧ ∀ x, f x = p 0 + ∑ i, x i • (p i.succ - p 0) := by
  have hl : LinearIndependent K (fun i : Fin n => p i.succ - p 0) := (affineIndependent_fin_succ p).1 hp
  let f : (Fin n → K) →ᵃ[K] (Fin d → K) :=
    (Fintype.linearCombination K (fun i : Fin n => p i.succ - p 0)).toAffineMap + AffineMap.const K _ (p 0)
  have hf : ∀ x, f x = p 0 + ∑ i, x i • (p i.succ - p 0) := by
    intro x
    simp only [f, AffineMap.coe_add, Pi.add_apply, LinearMap.coe_toAffineMap, Fintype.linearCombination_apply, AffineMap.const_apply]
    rw [add_comm]
  refine ⟨f, ?_, ?_, ?_, ?_, hf⟩
  · intro x y hxy
    rw [hf, hf, add_right_inj] at hxy
    exact funext (Fintype.linearIndependent_iffₛ.1 hl x y hxy)
  · ext x
    have h0 : p 0 ∈ affineSpan K (Set.range p) := subset_affineSpan K _ ⟨0, rfl⟩
    have h1 := (AffineSubspace.vsub_right_mem_direction_iff_mem h0 x)
    rw [span_succ, ← Fintype.range_linearCombination] at h1
    change _ ↔ x ∈ affineSpan K (Set.range p)
    rw [← h1]
    constructor
    · rintro ⟨c, rfl⟩
      exact ⟨c, by rw [hf, Fintype.linearCombination_apply, vsub_eq_sub]; simp⟩
    · rintro ⟨c, hc⟩
      refine ⟨c, ?_⟩
      rw [Fintype.linearCombination_apply, vsub_eq_sub] at hc
      rw [hf, hc]
      abel
  · rw [hf]; simp
  · intro i
    rw [hf]
    rw [Finset.sum_eq_single i]
    · simp
    · intro j _ hj
      rw [Pi.single_eq_of_ne hj, zero_smul]
    · simp

end Math

section
variable {α K : Type} [Field K] {v : α → K} {d : Nat} {sp : Space}

theorem sum_zipIdx {l : List (Vec α)} {k : Nat} (X : Nat → K) :
    ((l.zipIdx k).map fun e => X e.2 • e.1.val v d).sum = ∑ i : Fin l.length, X (k + i) • l[i].val v d := by
  rw [← List.sum_ofFn]
  congr 1
  apply List.ext_getElem (by simp)
  intro i h1 h2
  simp

end

section
variable {α K : Type} [Field K] [LinearOrder K] {S : OrdOps α} {v : α → K} (h : S.Models v) {d : Nat} {sp : Space}
include h

theorem OrdOps.Models.embedLoop {n : Nat} {emb : Space} {root pt : Vec α} {span : List (Vec α)} (hd : sp.dim = d + 1) (hn : emb.dim = n + 1)
    (hr : root.In sp) (hs : ∀ p ∈ span, p.In sp) (hp : pt.In emb) (hl : span.length = n) :
    ∃ r, S.embedLoop root span pt = some r ∧ r.In sp ∧
      r.val v d = root.val v d + ∑ i : Fin n, pt.val v n i • (span[(i : Nat)]'(by rw [hl]; exact i.2)).val v d := by
  have key : ∀ (l : List (Vec α)) (k : Nat) (tot : Vec α), (∀ p ∈ l, p.In sp) → tot.In sp → k + l.length ≤ n →
      ∃ r, ((l.zipIdx k).foldlM (fun total (e : Vec α × Nat) => (pt.coordinate e.2).bind fun c => S.vecAdd total (S.vecScalarMul e.1 c)) tot) = some r ∧
        r.In sp ∧ r.val v d = tot.val v d + ((l.zipIdx k).map fun e => (((pt.coords[e.2]?).map v).getD 0) • e.1.val v d).sum := by
    intro l
    induction l with
    | nil => intro k tot _ ht _; exact ⟨tot, rfl, ht, by simp⟩
    | cons p l ih =>
      intro k tot hm ht hk
      have hk' : k < n := by simp at hk; omega
      obtain ⟨c, c1, c2⟩ := hp.coordinate' hn v hk'
      obtain ⟨m1, m2⟩ := h.vecScalarMul hd (hm p (by simp)) c
      obtain ⟨t', t1, t2, t3⟩ := h.vecAdd hd ht m1
      obtain ⟨r, r1, r2, r3⟩ := ih (k + 1) t' (fun q hq => hm q (by simp [hq])) t2 (by simp at hk; omega)
      refine ⟨r, ?_, r2, ?_⟩
      · rw [List.zipIdx_cons, List.foldlM_cons]
        simp only [c1, Option.bind_some, t1, Option.bind_eq_bind]
        exact r1
      · rw [r3, t3, m2, c2, List.zipIdx_cons, List.map_cons, List.sum_cons, add_assoc]
        rfl
  obtain ⟨r, r1, r2, r3⟩ := key span 0 root hs hr (by omega)
  subst hl
  refine ⟨r, r1, r2, ?_⟩
  rw [r3, sum_zipIdx (X := fun j => ((pt.coords[j]?).map v).getD 0)]
  simp only [Nat.zero_add]
  rfl

/-- root and span -/
theorem EmbSub.Valid.rootAndSpan {e : EmbSub α} {n : Nat} (he : e.Valid v d) (hn : e.points.length = n + 1) :
    ∃ root span, S.rootAndSpan e = some (some (root, span)) ∧ e.points[0]? = some root ∧ root.In e.ambient ∧ (∀ p ∈ span, p.In e.ambient) ∧
      ∃ hl : span.length = n, ∀ i : Fin n, (span[(i : Nat)]'(by rw [hl]; exact i.2)).val v d =
        (e.points[(i : Nat) + 1]'(by rw [hn]; have := i.2; omega)).val v d - root.val v d := by
  obtain ⟨amb, emb, points⟩ := e
  cases points with
  | nil => simp at hn
  | cons root pts =>
    have hr := he.points.mem root (by simp)
    obtain ⟨l', h1, h2, h3, h4⟩ := h.subAll he.dim hr (fun q hq => he.points.mem q (by simp [hq]) : ∀ q ∈ pts, q.In amb)
    have hl : l'.length = n := by simp at hn; omega
    refine ⟨root, l', ?_, rfl, hr, h3, hl, ?_⟩
    · simp only [OrdOps.rootAndSpan, h1, Option.map_some]
    · intro i
      have := i.2
      simp only [List.getElem_cons_succ]
      exact h4 i (by omega) (by omega)

/-- The embedding, and its inverse. -/
theorem EmbSub.Valid.embed {e : EmbSub α} {n : Nat} (he : e.Valid v d) (hn : e.points.length = n + 1) :
    ∃ f : (Fin n → K) →ᵃ[K] (Fin d → K), Function.Injective f ∧ Set.range f = affineSpan K (pointSet v d e.points) ∧
      f 0 = (e.points[0]'(by omega)).val v d ∧
      (∀ i : Fin n, f (Pi.single i 1) = (e.points[(i : Nat) + 1]'(by have := i.2; omega)).val v d) ∧
      (∀ pt : Vec α, pt.In e.embedded → ∃ q, S.embedPoint e pt = some q ∧ q.In e.ambient ∧ q.val v d = f (pt.val v n)) ∧
      (∀ pt : Vec α, pt.In e.ambient →
        (∃ q, S.unembedPoint e pt = some (some q) ∧ q.In e.embedded ∧ f (q.val v n) = pt.val v d) ∨
        (S.unembedPoint e pt = some none ∧ pt.val v d ∉ affineSpan K (pointSet v d e.points))) := by
  obtain ⟨f, f1, f2, f3, f4, f5⟩ := exists_affMap (indep_cast hn he.points.indep)
  rw [← pointSet_range hn] at f2
  obtain ⟨root, span, r1, r2, r3, r4, hl, r5⟩ := he.rootAndSpan h hn
  have hroot : (e.points[0]'(by omega)) = root := by
    rw [List.getElem?_eq_getElem (by omega)] at r2
    exact Option.some.inj r2
  have hemb : e.embedded.dim = n + 1 := by rw [he.embedded, hn]
  have f5' : ∀ x, f x = root.val v d + ∑ i : Fin n, x i • (span[(i : Nat)]'(by rw [hl]; exact i.2)).val v d := by
    intro x
    rw [f5]
    congr 1
    · exact congrArg (Vec.val v d) hroot
    · apply Finset.sum_congr rfl
      intro i _
      rw [r5]
      congr 2
      exact congrArg (Vec.val v d) hroot
  refine ⟨f, f1, f2, f3, f4, ?_, ?_⟩
  · intro pt hp
    obtain ⟨q, q1, q2, q3⟩ := h.embedLoop he.dim hemb r3 r4 hp hl
    refine ⟨q, ?_, q2, by rw [q3, f5']⟩
    unfold OrdOps.embedPoint
    simp only [hp.space, assertThat, decide_true, if_true, r1, Option.bind_eq_bind, Option.bind_some, q1]
  · intro pt hp
    obtain ⟨dv, d1, d2, d3⟩ := h.vecSub he.dim hp r3
    obtain ⟨y, y1, y2⟩ := intoCol_denotes (v := v) S.zero he.dim d2
    obtain ⟨m, m1, m2⟩ := rowsFromVectors_denotes (v := v) S.zero he.dim r4
    subst hl
    have hmul : ∀ X : Matrix (Fin span.length) (Fin 1) K, (Matrix.of (pointsOf v d span)).transpose * X =
        (Matrix.of fun (i : Fin d) (_ : Fin 1) => dv.val v d i) ↔ f (fun i => X i 0) = pt.val v d := by
      intro X
      rw [f5', ← eq_sub_iff_add_eq', ← d3]
      constructor
      · intro e1
        funext i
        have := congrFun (congrFun e1 i) 0
        rw [Matrix.mul_apply] at this
        simp only [Matrix.transpose_apply, Matrix.of_apply] at this
        rw [← this, Finset.sum_apply]
        apply Finset.sum_congr rfl
        intro j _
        rw [Pi.smul_apply, smul_eq_mul, mul_comm]
        rfl
      · intro e1
        ext i j
        rw [Fin.fin_one_eq_zero j, Matrix.mul_apply, Matrix.of_apply, ← e1, Finset.sum_apply]
        apply Finset.sum_congr rfl
        intro j _
        rw [Pi.smul_apply, smul_eq_mul, mul_comm]
        rfl
    have base : S.unembedPoint e pt = (S.bez.colSolve m.transposed y).bind fun x =>
        match x with
        | none => some none
        | some x => (vectorFromCol e.embedded x).map some := by
      unfold OrdOps.unembedPoint
      simp only [hp.space, assertThat, decide_true, if_true, r1, Option.bind_eq_bind, Option.bind_some]
      unfold OrdOps.unembedSolve colsFromVectors
      simp only [d1, y1, m1, Option.bind_eq_bind, Option.bind_some, Option.map_some]
      rfl
    rcases h.bez.colSolve m2.transposed y2 with ⟨x, X, x1, x2, x3⟩ | ⟨x1, x2⟩
    · left
      obtain ⟨q, q1, q2, q3⟩ := vectorFromCol_some hemb x2
      refine ⟨q, ?_, q2, ?_⟩
      · rw [base, x1]
        simp only [Option.bind_some, q1, Option.map_some]
      · rw [q3]
        exact (hmul X).1 x3
    · right
      refine ⟨by rw [base, x1]; rfl, ?_⟩
      intro hmem
      rw [← SetLike.mem_coe, ← f2] at hmem
      obtain ⟨c, hc⟩ := hmem
      exact x2 ⟨Matrix.of fun i _ => c i, (hmul _).2 hc⟩

/-- a point is in the subspace exactly when it can be unembedded, also for the empty subspace -/
theorem EmbSub.Valid.unembed_none {e : EmbSub α} (he : e.Valid v d) {pt : Vec α} (hp : pt.In e.ambient) :
    (∃ r, S.unembedPoint e pt = some r) ∧ (S.unembedPoint e pt = some none ↔ pt.val v d ∉ affineSpan K (pointSet v d e.points)) := by
  cases hn : e.points.length with
  | zero =>
    have e0 : e.points = [] := List.length_eq_zero_iff.1 hn
    have h1 : S.unembedPoint e pt = some none := by
      unfold OrdOps.unembedPoint OrdOps.rootAndSpan
      rw [e0, hp.space]
      simp [assertThat]
    refine ⟨⟨_, h1⟩, ?_⟩
    rw [h1, e0]
    have : pointSet v d ([] : List (Vec α)) = ∅ := by ext; simp [pointSet]
    rw [this, AffineSubspace.span_empty]
    simp only [true_iff]
    exact fun hh => AffineSubspace.notMem_bot K _ _ hh
  | succ n =>
    obtain ⟨f, f1, f2, -, -, -, f6⟩ := he.embed h hn
    rcases f6 pt hp with ⟨q, q1, q2, q3⟩ | ⟨q1, q2⟩
    · refine ⟨⟨_, q1⟩, ?_⟩
      rw [q1]
      simp only [Option.some.injEq, reduceCtorEq, false_iff, not_not]
      rw [← q3, ← SetLike.mem_coe, ← f2]
      exact ⟨_, rfl⟩
    · exact ⟨⟨_, q1⟩, by rw [q1]; simp [q2]⟩

theorem OrdOps.Models.basisCoord (i j : Nat) : v (S.basisCoord i j) = if i = j + 1 then 1 else 0 := by
  unfold OrdOps.basisCoord
  have h0 := h.toDomain.toRing.toSemi.zero
  have h1 := h.toDomain.toRing.toSemi.one
  by_cases hi : i = 0
  · rw [if_pos hi, if_neg (by omega), h0]
  · rw [if_neg hi]
    split_ifs <;> simp [h0, h1]

/-- the points `0, e_0, e_1, ..` -/
theorem OrdOps.Models.basisPoints {n m : Nat} (hd : sp.dim = n + 1) (hm : m ≤ n + 1) :
    ∃ l, ((List.range m).mapM fun i => Vec.construct sp fun j => some (S.basisCoord i j)) = some l ∧ l.length = m ∧ (∀ p ∈ l, p.In sp) ∧
      ∀ (i : Nat) (hi : i < l.length), l[i].val v n = fun j : Fin n => if i = (j : Nat) + 1 then 1 else 0 := by
  obtain ⟨l, l1, l2, l3⟩ := mapM_fin (l := List.range m) (f := fun i => Vec.construct sp fun j => some (S.basisCoord i j))
    (P := fun i p => p.In sp ∧ p.val v n = fun j : Fin n => if i = (j : Nat) + 1 then 1 else 0) (by
      intro i hi
      obtain ⟨p, p1, p2, p3⟩ := Vec.construct_some v (f := fun j => some (S.basisCoord i j)) (x := fun j : Fin n => if i = (j : Nat) + 1 then 1 else 0) hd
        (fun j => ⟨_, rfl, h.basisCoord i j⟩)
      exact ⟨p, by simpa using p1, p2, p3⟩)
  refine ⟨l, l1, by simpa using l2, ?_, fun i hi => (l3 i hi).2⟩
  intro p hp
  obtain ⟨i, hi, rfl⟩ := List.getElem_of_mem hp
  exact (l3 i hi).1

/-- `new_affine_span` -/
theorem OrdOps.Models.spanNew (ident : Nat) {points : List (Vec α)} (hd : sp.dim = d + 1) (hp : ∀ p ∈ points, p.In sp) :
    (AffineIndependent K (pointsOf v d points) → ∃ e pts, S.spanNew ident sp points = some (.ok (e, pts)) ∧ e.Valid v d ∧
      e.ambient = sp ∧ e.embedded.ident = ident ∧ e.points = points ∧ pts.length = points.length ∧ (∀ p ∈ pts, p.In e.embedded) ∧
      ∀ (i : Nat) (hi : i < pts.length), pts[i].val v (points.length - 1) = fun j : Fin (points.length - 1) => if i = (j : Nat) + 1 then 1 else 0) ∧
    (¬ AffineIndependent K (pointsOf v d points) → S.spanNew ident sp points = some (.error ())) := by
  constructor
  · intro hi
    have h1 := h.affIndep_true hd ⟨hp, hi⟩
    cases points with
    | nil =>
      refine ⟨⟨sp, ⟨0, ident⟩, []⟩, [], ?_, ⟨hd, ⟨by simp, indep_nil⟩, rfl⟩, rfl, rfl, rfl, rfl, by simp, by simp⟩
      unfold OrdOps.spanNew
      simp only [all_space' hp, h1, assertThat, if_true, Option.bind_eq_bind, Option.bind_some]
      rfl
    | cons p ps =>
      obtain ⟨l, l1, l2, l3, l4⟩ := h.basisPoints (sp := ⟨(p :: ps).length, ident⟩) (n := ps.length) (m := (p :: ps).length) (by simp) (by simp)
      refine ⟨⟨sp, ⟨(p :: ps).length, ident⟩, p :: ps⟩, l, ?_, ⟨hd, ⟨hp, hi⟩, rfl⟩, rfl, rfl, rfl, l2, l3, ?_⟩
      · unfold OrdOps.spanNew
        simp only [all_space' hp, h1, assertThat, if_true, Option.bind_eq_bind, Option.bind_some, l1]
        rfl
      · intro i hi
        exact l4 i hi
  · intro hi
    have h1 := h.affIndep_false hd hp hi
    unfold OrdOps.spanNew
    simp only [all_space' hp, h1, assertThat, if_true, Option.bind_eq_bind, Option.bind_some]
    rfl

/-- embedding a simplex -/
theorem EmbSub.Valid.embedSimplex {e : EmbSub α} {n : Nat} (he : e.Valid v d) (hn : e.points.length = n + 1) {f : (Fin n → K) →ᵃ[K] (Fin d → K)}
    (hf : Function.Injective f)
    (hf' : ∀ pt : Vec α, pt.In e.embedded → ∃ q, S.embedPoint e pt = some q ∧ q.In e.ambient ∧ q.val v d = f (pt.val v n))
    {s : Simplex α} (hs : s.Valid v n e.embedded) :
    ∃ t, S.embedSimplex e s = some t ∧ t.Valid v d e.ambient ∧ pointSet v d t.points = f '' pointSet v n s.points := by
  obtain ⟨l, l1, l2, l3⟩ := mapM_fin (l := s.points) (f := S.embedPoint e)
    (P := fun i p => p.In e.ambient ∧ ∀ hi : i < s.points.length, p.val v d = f (s.points[i].val v n)) (by
      intro i hi
      obtain ⟨q, q1, q2, q3⟩ := hf' _ (hs.points.mem _ (List.getElem_mem hi))
      exact ⟨q, q1, q2, fun _ => q3⟩)
  have hval : pointsOf v d l = f ∘ fun i : Fin l.length => (s.points[(i : Nat)]'(by rw [← l2]; exact i.2)).val v n := by
    funext i
    exact (l3 i i.2).2 _
  have hind : Independent v d e.ambient l := by
    refine ⟨?_, ?_⟩
    · intro p hp
      obtain ⟨i, hi, rfl⟩ := List.getElem_of_mem hp
      exact (l3 i hi).1
    · rw [hval]
      exact (indep_cast l2.symm hs.points.indep).map' f hf
  obtain ⟨t, t1, t2, t3⟩ := h.simplexUnwrap he.dim hind
  refine ⟨t, ?_, t2, ?_⟩
  · unfold OrdOps.embedSimplex
    simp only [l1, Option.bind_eq_bind, Option.bind_some, t1]
  · rw [pointSet_perm t3, ← range_pointsOf, hval, Set.range_comp, ← pointSet_range l2.symm]

theorem unembedLoop_some {e : EmbSub α} {n : Nat} {f : (Fin n → K) →ᵃ[K] (Fin d → K)}
    (hf : Set.range f = affineSpan K (pointSet v d e.points))
    (hf' : ∀ pt : Vec α, pt.In e.ambient →
        (∃ q, S.unembedPoint e pt = some (some q) ∧ q.In e.embedded ∧ f (q.val v n) = pt.val v d) ∨
        (S.unembedPoint e pt = some none ∧ pt.val v d ∉ affineSpan K (pointSet v d e.points)))
    {l : List (Vec α)} (hl : ∀ p ∈ l, p.In e.ambient) :
    (∃ l', S.unembedLoop e l = some (some l') ∧ l'.length = l.length ∧ (∀ p ∈ l', p.In e.embedded) ∧
      ∀ (i : Nat) (hi : i < l'.length) (hi' : i < l.length), f (l'[i].val v n) = l[i].val v d) ∨
    (S.unembedLoop e l = some none ∧ ∃ p ∈ l, p.val v d ∉ affineSpan K (pointSet v d e.points)) := by
  induction l with
  | nil => exact .inl ⟨[], rfl, rfl, by simp, by simp⟩
  | cons p l ih =>
    rcases hf' p (hl p (by simp)) with ⟨q, q1, q2, q3⟩ | ⟨q1, q2⟩
    · rcases ih (fun q hq => hl q (by simp [hq])) with ⟨l', a1, a2, a3, a4⟩ | ⟨a1, r, a2, a3⟩
      · refine .inl ⟨q :: l', ?_, by simp [a2], ?_, ?_⟩
        · simp only [OrdOps.unembedLoop, q1, Option.bind_eq_bind, Option.bind_some, a1, Option.map_some]
        · intro r hr
          rcases List.mem_cons.1 hr with rfl | hr
          · exact q2
          · exact a3 r hr
        · intro i hi hi'
          cases i with
          | zero => exact q3
          | succ i => exact a4 i (by simpa using hi) (by simpa using hi')
      · refine .inr ⟨?_, r, by simp [a2], a3⟩
        simp only [OrdOps.unembedLoop, q1, Option.bind_eq_bind, Option.bind_some, a1, Option.map_some, Option.map_none]
    · exact .inr ⟨by simp only [OrdOps.unembedLoop, q1, Option.bind_eq_bind, Option.bind_some], p, by simp, q2⟩

theorem EmbSub.Valid.unembedSimplex {e : EmbSub α} {n : Nat} (he : e.Valid v d) (hn : e.points.length = n + 1) {f : (Fin n → K) →ᵃ[K] (Fin d → K)}
    (hi : Function.Injective f) (hf : Set.range f = affineSpan K (pointSet v d e.points))
    (hf' : ∀ pt : Vec α, pt.In e.ambient →
        (∃ q, S.unembedPoint e pt = some (some q) ∧ q.In e.embedded ∧ f (q.val v n) = pt.val v d) ∨
        (S.unembedPoint e pt = some none ∧ pt.val v d ∉ affineSpan K (pointSet v d e.points)))
    {s : Simplex α} (hs : s.Valid v d e.ambient) :
    (∃ t, S.unembedSimplex e s = some (some t) ∧ t.Valid v n e.embedded ∧ f '' pointSet v n t.points = pointSet v d s.points) ∨
    (S.unembedSimplex e s = some none ∧ ¬ pointSet v d s.points ⊆ affineSpan K (pointSet v d e.points)) := by
  rcases unembedLoop_some h hf hf' hs.points.mem with ⟨l, a1, a2, a3, a4⟩ | ⟨a1, r, a2, a3⟩
  · left
    have hval : f ∘ pointsOf v n l = fun i : Fin l.length => (s.points[(i : Nat)]'(by rw [← a2]; exact i.2)).val v d := by
      funext i
      exact a4 i i.2 (by rw [← a2]; exact i.2)
    have hind : Independent v n e.embedded l := by
      refine ⟨a3, ?_⟩
      rw [← f.affineIndependent_iff hi, hval]
      exact indep_cast a2.symm hs.points.indep
    obtain ⟨t, t1, t2, t3⟩ := h.simplexUnwrap (by rw [he.embedded, hn]) hind
    refine ⟨t, ?_, t2, ?_⟩
    · unfold OrdOps.unembedSimplex
      simp only [a1, Option.bind_eq_bind, Option.bind_some, t1, Option.map_some]
    · rw [pointSet_perm t3, ← range_pointsOf, ← Set.range_comp, hval, ← pointSet_range a2.symm]
  · right
    refine ⟨?_, fun hh => a3 (hh ⟨r, a2, rfl⟩)⟩
    unfold OrdOps.unembedSimplex
    simp only [a1, Option.bind_eq_bind, Option.bind_some]

end

end Verif.Geometry
