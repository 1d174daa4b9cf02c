import Verif.Proofs.GeometrySide

/-! # Oriented simplices -/

namespace Verif.Geometry

open Verif.Rings

section
variable {α K : Type} [Field K] [LinearOrder K] [IsStrictOrderedRing K] {S : OrdOps α} {v : α → K} (h : S.Models v) {d : Nat} {sp : Space}
include h

omit h [LinearOrder K] [IsStrictOrderedRing K] in
/-- the points of a list of known length -/
theorem pointSet_range {l : List (Vec α)} {n : Nat} (hl : l.length = n) :
    pointSet v d l = Set.range fun i : Fin n => (l[(i : Nat)]'(by rw [hl]; exact i.2)).val v d := by
  subst hl
  exact (range_pointsOf l).symm

omit h [LinearOrder K] [IsStrictOrderedRing K] in
theorem indep_cast {l : List (Vec α)} {n : Nat} (hl : l.length = n) (hi : AffineIndependent K (pointsOf v d l)) :
    AffineIndependent K fun i : Fin n => (l[(i : Nat)]'(by rw [hl]; exact i.2)).val v d := by
  subst hl
  exact hi

/-- The quantity `classify_point_quantitatively` computes is a linear function that vanishes exactly on the hyperplane. -/
theorem OrdOps.Models.classifyQuant {s : Simplex α} (hd : sp.dim = d + 1) (hs : s.Valid v d sp) (hl : s.points.length = d) (hd0 : d ≠ 0) :
    ∃ (L : (Fin d → K) →ₗ[K] K) (p0 : Vec α), s.points[0]? = some p0 ∧ p0.val v d ∈ s.span v d ∧ LinearMap.ker L = (s.span v d).direction ∧
      ∀ (f : Bool) (r x : Vec α), x.In sp → ∃ y, S.classifyQuant ⟨s, some (f, r)⟩ x = some y ∧
        v y = (if f then -1 else 1) * L (x.val v d - p0.val v d) := by
  obtain ⟨n, rfl⟩ := Nat.exists_eq_succ_of_ne_zero hd0
  obtain ⟨L, hL1, hL2⟩ := exists_functional (indep_cast hl hs.points.indep)
  have h0 : 0 < s.points.length := by omega
  have hroot : s.points[0].In sp := hs.points.mem _ (List.getElem_mem _)
  refine ⟨L, s.points[0], List.getElem?_eq_getElem h0, subset_affineSpan K _ ⟨_, List.getElem_mem _, rfl⟩, ?_, ?_⟩
  · rw [hL2, Simplex.span, pointSet_range hl]
  · intro f r x hx
    obtain ⟨vecs, e1, e2, e3⟩ := mapM_fin (l := List.range' 1 n) (f := fun i => (s.points[i]?).bind fun p => S.vecSub p s.points[0])
      (P := fun i p => p.In sp ∧ ∀ hi : i + 1 < s.points.length, p.val v (n + 1) = s.points[i + 1].val v (n + 1) - s.points[0].val v (n + 1)) (by
        intro i hi
        have hi' : i + 1 < s.points.length := by simp at hi; omega
        obtain ⟨w, w1, w2, w3⟩ := h.vecSub hd (hs.points.mem _ (List.getElem_mem hi')) hroot
        refine ⟨w, ?_, w2, fun _ => w3⟩
        rw [List.getElem_range', Nat.one_mul, Nat.add_comm, List.getElem?_eq_getElem hi']
        exact w1)
    obtain ⟨last, l1, l2, l3⟩ := h.vecSub hd hx hroot
    have hvl : vecs.length = n := by simpa using e2
    obtain ⟨y, y1, y2⟩ := h.determinant (vecs := vecs ++ [last]) hd (by
      intro p hp
      rcases List.mem_append.1 hp with hp | hp
      · obtain ⟨i, hi, rfl⟩ := List.getElem_of_mem hp
        exact (e3 i hi).1
      · rw [List.mem_singleton.1 hp]; exact l2) (by simp [hvl])
    have hy : v y = L (x.val v (n + 1) - s.points[0].val v (n + 1)) := by
      rw [y2, hL1]
      congr 1
      ext i j
      simp only [Matrix.of_apply]
      congr 1
      refine Fin.lastCases ?_ (fun i => ?_) i
      · rw [Fin.snoc_last]
        simp only [Fin.getElem_fin, Fin.val_last]
        rw [List.getElem_append_right (by omega)]
        simp [hvl, l3]
      · rw [Fin.snoc_castSucc]
        simp only [Fin.getElem_fin, Fin.val_castSucc]
        rw [List.getElem_append_left (by rw [hvl]; exact i.2)]
        exact congrFun ((e3 i (by rw [hvl]; exact i.2)).2 (by have := i.2; omega)) j
    have hdet : S.classifyDet ⟨s, some (f, r)⟩ (n + 1) x = some y := by
      unfold OrdOps.classifyDet
      simp only [List.getElem?_eq_getElem h0, Option.bind_eq_bind, Option.bind_some, Nat.add_sub_cancel, e1, l1, hs.space]
      exact y1
    refine ⟨if f then S.neg y else y, ?_, ?_⟩
    · unfold OrdOps.classifyQuant
      simp only [hs.space, Space.linDim_eq hd, Option.bind_eq_bind, Option.bind_some, hdet, assertThat]
      simp
    · cases f
      · simp [hy]
      · simp [h.toDomain.toRing.neg, hy]

omit [IsStrictOrderedRing K] in
theorem OrdOps.Models.sideOf (x : α) : (S.sideOf x = .positive ↔ 0 < v x) ∧ (S.sideOf x = .neutral ↔ v x = 0) ∧ (S.sideOf x = .negative ↔ v x < 0) := by
  have e : S.cmp x S.zero = compare (v x) 0 := by rw [h.cmp, h.toDomain.toRing.toSemi.zero]
  unfold OrdOps.sideOf
  rw [e]
  rcases lt_trichotomy (v x) 0 with hh | hh | hh
  · rw [compare_lt_iff_lt.2 hh]; simp [hh, hh.ne, hh.le]
  · rw [compare_eq_iff_eq.2 hh]; simp [hh]
  · rw [compare_gt_iff_gt.2 hh]; simp [hh, hh.ne', hh.le]

/-- the linear function of an oriented simplex -/
theorem OSimplex.Valid.functional {o : OSimplex α} (hd : sp.dim = d + 1) (ho : o.Valid S v d sp) {f : Bool} {r : Vec α} (he : o.orientation = some (f, r)) :
    ∃ (L : (Fin d → K) →ₗ[K] K) (p0 : Vec α), o.simplex.points[0]? = some p0 ∧ p0.val v d ∈ o.simplex.span v d ∧
      LinearMap.ker L = (o.simplex.span v d).direction ∧ 0 < L (r.val v d - p0.val v d) ∧
      (∀ (x : Vec α), x.In sp → ∃ y, S.classifyQuant o x = some y ∧ v y = L (x.val v d - p0.val v d)) ∧
      (∀ (q x : Vec α), x.In sp → ∃ y, S.classifyQuant ⟨o.simplex, some (!f, q)⟩ x = some y ∧ v y = -L (x.val v d - p0.val v d)) := by
  have hd0 : d ≠ 0 := fun e => by rw [ho.empty.2 e] at he; cases he
  obtain ⟨L, p0, h1, h2, h3, h4⟩ := h.classifyQuant hd ho.simplex ho.length hd0
  obtain ⟨hr1, hr2⟩ := ho.reference f r he
  have eo : o = ⟨o.simplex, some (f, r)⟩ := by cases o; simp_all
  obtain ⟨y, y1, y2⟩ := h4 f r r hr1
  have hpos : 0 < v y := by
    rw [OrdOps.classify, eo, y1] at hr2
    simp only [Option.map_some, Option.some.injEq] at hr2
    exact (h.sideOf y).1.1 hr2
  cases f
  · refine ⟨L, p0, h1, h2, h3, ?_, ?_, ?_⟩
    · rw [y2] at hpos; simpa using hpos
    · intro x hx
      obtain ⟨z, z1, z2⟩ := h4 false r x hx
      exact ⟨z, by rw [eo]; exact z1, by simpa using z2⟩
    · intro q x hx
      obtain ⟨z, z1, z2⟩ := h4 true q x hx
      exact ⟨z, z1, by simpa using z2⟩
  · refine ⟨-L, p0, h1, h2, by rw [LinearMap.ker_neg]; exact h3, ?_, ?_, ?_⟩
    · rw [y2] at hpos; simpa using hpos
    · intro x hx
      obtain ⟨z, z1, z2⟩ := h4 true r x hx
      exact ⟨z, by rw [eo]; exact z1, by simpa using z2⟩
    · intro q x hx
      obtain ⟨z, z1, z2⟩ := h4 false q x hx
      exact ⟨z, z1, by simpa using z2⟩

theorem OSimplex.Valid.classify {o : OSimplex α} (hd : sp.dim = d + 1) (ho : o.Valid S v d sp) {f : Bool} {r : Vec α} (he : o.orientation = some (f, r))
    {x : Vec α} (hx : x.In sp) :
    ∃ side, S.classify o x = some side ∧ (side = .neutral ↔ x.val v d ∈ o.simplex.span v d) ∧
      (side = .positive ↔ (o.simplex.span v d).SSameSide (r.val v d) (x.val v d)) ∧
      (side = .negative ↔ (o.simplex.span v d).SOppSide (r.val v d) (x.val v d)) := by
  obtain ⟨L, p0, h1, h2, h3, h4, h5, h6⟩ := ho.functional h hd he
  obtain ⟨y, y1, y2⟩ := h5 x hx
  have hs := h.sideOf y
  refine ⟨S.sideOf y, by unfold OrdOps.classify; rw [y1]; rfl, ?_, ?_, ?_⟩
  · rw [hs.2.1, mem_iff_functional h2 h3, y2]
  · rw [hs.1, sameSide_iff_functional h2 h3, y2, mul_pos_iff_of_pos_left h4]
  · rw [hs.2.2, oppSide_iff_functional h2 h3, y2, mul_neg_iff]
    constructor
    · intro hh; exact .inl ⟨h4, hh⟩
    · rintro (hh | hh)
      · exact hh.2
      · exact absurd hh.1 (not_lt.2 h4.le)

omit h [LinearOrder K] [IsStrictOrderedRing K] in
theorem dim_zero_in {p : Vec α} : p.In sp → sp.dim ≠ 0 := fun hp => by have := hp.length; omega

omit [IsStrictOrderedRing K] in
theorem OrdOps.Models.newPositive_len {points : List (Vec α)} {ref : Vec α} (hd : sp.dim = d + 1) (hr : ref.In sp) (hl : points.length ≠ d) :
    S.newPositive sp points ref = some (.error ()) := by
  unfold OrdOps.newPositive
  simp only [hr.space, decide_true, assertThat, if_true, Space.linDim_eq hd, Option.bind_eq_bind, Option.bind_some]
  rw [if_pos hl]

/-- `new_with_positive_point` -/
theorem OrdOps.Models.newPositive {points : List (Vec α)} {ref : Vec α} (hd : sp.dim = d + 1) (hp : ∀ p ∈ points, p.In sp) (hr : ref.In sp) :
    (points.length = d ∧ AffineIndependent K (pointsOf v d points) ∧ ref.val v d ∉ affineSpan K (pointSet v d points) ∧
      ∃ o, S.newPositive sp points ref = some (.ok o) ∧ o.Valid S v d sp ∧ o.simplex.points.Perm points ∧
        (d ≠ 0 → ∃ f, o.orientation = some (f, ref))) ∨
    (¬ (points.length = d ∧ AffineIndependent K (pointsOf v d points) ∧ ref.val v d ∉ affineSpan K (pointSet v d points)) ∧
      S.newPositive sp points ref = some (.error ())) := by
  by_cases hl : points.length = d
  swap
  · exact .inr ⟨fun hh => hl hh.1, h.newPositive_len hd hr hl⟩
  obtain ⟨n1, n2⟩ := h.simplexNew hd hp
  by_cases hi : AffineIndependent K (pointsOf v d points)
  swap
  · refine .inr ⟨fun hh => hi hh.2.1, ?_⟩
    unfold OrdOps.newPositive
    simp only [hr.space, decide_true, assertThat, if_true, Space.linDim_eq hd, Option.bind_eq_bind, Option.bind_some]
    rw [if_neg (by simpa using hl), n2 hi]
    rfl
  obtain ⟨s, s1, s2, s3⟩ := n1 hi
  have base : S.newPositive sp points ref = if d = 0 then some (.ok ⟨s, none⟩) else S.orientBy s ref := by
    unfold OrdOps.newPositive
    simp only [hr.space, decide_true, assertThat, if_true, Space.linDim_eq hd, Option.bind_eq_bind, Option.bind_some]
    rw [if_neg (by simpa using hl), s1, hl]
    rfl
  have hsl : s.points.length = d := s3.length_eq.trans hl
  have hspan : s.span v d = affineSpan K (pointSet v d points) := by unfold Simplex.span; rw [pointSet_perm s3]
  by_cases hd0 : d = 0
  · subst hd0
    obtain rfl : points = [] := List.length_eq_zero_iff.1 hl
    refine .inl ⟨rfl, hi, ?_, ⟨s, none⟩, by rw [base, if_pos rfl], ⟨s2, hsl, fun f r e => by simp at e, by simp⟩, s3, fun e => absurd rfl e⟩
    have : pointSet v 0 ([] : List (Vec α)) = ∅ := by ext; simp [pointSet]
    rw [this, AffineSubspace.span_empty]
    exact fun hh => AffineSubspace.notMem_bot K _ _ hh
  · rw [if_neg hd0] at base
    obtain ⟨L, p0, h1, h2, h3, h4⟩ := h.classifyQuant hd s2 hsl hd0
    have hm := mem_iff_functional h2 h3 (ref.val v d)
    obtain ⟨y, y1, y2⟩ := h4 false ref ref hr
    obtain ⟨z, z1, z2⟩ := h4 true ref ref hr
    simp only [Bool.false_eq_true, if_false, one_mul] at y2
    simp only [if_true, neg_one_mul] at z2
    have hs := h.sideOf y
    have hs' := h.sideOf z
    rw [← hspan, hm, ← y2, ← hs.2.1]
    have hc : S.classify ⟨s, some (false, ref)⟩ ref = some (S.sideOf y) := by unfold OrdOps.classify; rw [y1]; rfl
    have hc' : S.classify ⟨s, some (true, ref)⟩ ref = some (S.sideOf z) := by unfold OrdOps.classify; rw [z1]; rfl
    rw [base]
    unfold OrdOps.orientBy
    rw [hc]
    simp only [Option.bind_eq_bind, Option.bind_some]
    cases hside : S.sideOf y with
    | positive =>
      refine .inl ⟨hl, hi, by simp, _, rfl, ⟨s2, hsl, ?_, by simp [hd0]⟩, s3, fun _ => ⟨_, rfl⟩⟩
      intro f r e
      simp only [Option.some.injEq, Prod.mk.injEq] at e
      obtain ⟨rfl, rfl⟩ := e
      exact ⟨hr, by rw [hc, hside]⟩
    | neutral => exact .inr ⟨by simp, rfl⟩
    | negative =>
      refine .inl ⟨hl, hi, by simp, _, rfl, ⟨s2, hsl, ?_, by simp [hd0]⟩, s3, fun _ => ⟨_, rfl⟩⟩
      intro f r e
      simp only [Option.some.injEq, Prod.mk.injEq] at e
      obtain ⟨rfl, rfl⟩ := e
      refine ⟨hr, ?_⟩
      rw [hc']
      congr 1
      rw [hs'.1, z2, ← y2]
      exact neg_pos.2 (hs.2.2.1 hside)

/-- `negative_point` is on the other side, and `flip` makes it the reference point. -/
theorem OSimplex.Valid.flip {o : OSimplex α} (hd : sp.dim = d + 1) (ho : o.Valid S v d sp) :
    ∃ o', S.flip o = some o' ∧ o'.Valid S v d sp ∧ o'.simplex = o.simplex ∧ ∀ x : Vec α, x.In sp →
      ∃ a b, S.classify o x = some a ∧ S.classify o' x = some b ∧
        (a = .positive ↔ b = .negative) ∧ (a = .neutral ↔ b = .neutral) ∧ (a = .negative ↔ b = .positive) := by
  obtain ⟨s, ori⟩ := o
  cases ori with
  | none =>
    refine ⟨_, rfl, ho, rfl, ?_⟩
    intro x hx
    have e : S.classify ⟨s, none⟩ x = some .neutral := by
      unfold OrdOps.classify OrdOps.classifyQuant
      simp only [Option.map_some, Option.some.injEq]
      exact (h.sideOf S.zero).2.1.2 h.toDomain.toRing.toSemi.zero
    exact ⟨_, _, e, e, by simp⟩
  | some fr =>
    obtain ⟨f, r⟩ := fr
    obtain ⟨L, p0, h1, h2, h3, h4, h5, h6⟩ := ho.functional h hd rfl
    obtain ⟨hr, -⟩ := ho.reference f r rfl
    have hp0 : p0.In sp := ho.simplex.points.mem _ (List.mem_of_getElem? h1)
    obtain ⟨pp, pp1, pp2, pp3⟩ := h.vecAdd hd hp0 hp0
    obtain ⟨neg, n1, n2, n3⟩ := h.vecSub hd pp2 hr
    have hneg : S.negativePoint ⟨s, some (f, r)⟩ = some (some neg) := by
      unfold OrdOps.negativePoint
      simp only [h1, pp1, n1, Option.bind_eq_bind, Option.bind_some]
    obtain ⟨y, y1, y2⟩ := h6 neg neg n2
    have hval : v y = L (r.val v d - p0.val v d) := by
      rw [y2, n3, pp3]
      have : p0.val v d + p0.val v d - r.val v d - p0.val v d = -(r.val v d - p0.val v d) := by abel
      rw [this, map_neg, neg_neg]
    have hc : S.classify ⟨s, some (!f, neg)⟩ neg = some .positive := by
      unfold OrdOps.classify
      rw [y1]
      simp only [Option.map_some, Option.some.injEq]
      rw [(h.sideOf y).1, hval]
      exact h4
    refine ⟨⟨s, some (!f, neg)⟩, ?_, ⟨ho.simplex, ho.length, ?_, ?_⟩, rfl, ?_⟩
    · unfold OrdOps.flip
      simp only [hneg, Option.bind_eq_bind, Option.bind_some, hc, assertThat, decide_true, if_true]
    · intro f' r' e
      simp only [Option.some.injEq, Prod.mk.injEq] at e
      obtain ⟨rfl, rfl⟩ := e
      exact ⟨n2, hc⟩
    · have := ho.empty
      simpa using this
    · intro x hx
      obtain ⟨a, a1, a2⟩ := h5 x hx
      obtain ⟨b, b1, b2⟩ := h6 neg x hx
      refine ⟨S.sideOf a, S.sideOf b, by unfold OrdOps.classify; rw [a1]; rfl, by unfold OrdOps.classify; rw [b1]; rfl, ?_⟩
      have ha := h.sideOf a
      have hb := h.sideOf b
      rw [ha.1, ha.2.1, ha.2.2, hb.1, hb.2.1, hb.2.2, a2, b2]
      exact ⟨neg_lt_zero.symm, neg_eq_zero.symm, neg_pos.symm⟩

/-- `intersect_line` -/
theorem OSimplex.Valid.intersectLine {o : OSimplex α} (hd : sp.dim = d + 1) (ho : o.Valid S v d sp) {a b : Vec α} (ha : a.In sp) (hb : b.In sp) :
    ∃ res, S.intersectLine o a b = some res ∧ S.classify o a = some res.first ∧ S.classify o b = some res.second ∧
      (res.intersection = none ↔ ¬ ((res.first = .negative ∧ res.second = .positive) ∨ (res.first = .positive ∧ res.second = .negative))) ∧
      ∀ p, res.intersection = some p → p.In sp ∧ p.val v d ∈ o.simplex.span v d ∧ Sbtw K (a.val v d) (p.val v d) (b.val v d) := by
  cases hori : o.orientation with
  | none =>
    have e : ∀ x, S.classifyQuant o x = some S.zero := fun x => by unfold OrdOps.classifyQuant; rw [hori]
    have hz : S.sideOf S.zero = .neutral := (h.sideOf S.zero).2.1.2 h.toDomain.toRing.toSemi.zero
    refine ⟨⟨.neutral, .neutral, none⟩, ?_, ?_, ?_, by simp, by simp⟩
    · unfold OrdOps.intersectLine
      simp only [e, Option.bind_eq_bind, Option.bind_some, hz]
    · unfold OrdOps.classify; rw [e, ← hz]; rfl
    · unfold OrdOps.classify; rw [e, ← hz]; rfl
  | some fr =>
    obtain ⟨f, r⟩ := fr
    obtain ⟨L, p0, h1, h2, h3, h4, h5, h6⟩ := ho.functional h hd hori
    obtain ⟨x, x1, x2⟩ := h5 a ha
    obtain ⟨y, y1, y2⟩ := h5 b hb
    have hx := h.sideOf x
    have hy := h.sideOf y
    have hca : S.classify o a = some (S.sideOf x) := by unfold OrdOps.classify; rw [x1]; rfl
    have hcb : S.classify o b = some (S.sideOf y) := by unfold OrdOps.classify; rw [y1]; rfl
    have key : ∀ sa sb, S.sideOf x = sa → S.sideOf y = sb → (v x < 0 ∧ 0 < v y) ∨ (0 < v x ∧ v y < 0) →
        ∃ p, S.intersectPoint o a b x y sa sb = some p ∧ p.In sp ∧ p.val v d ∈ o.simplex.span v d ∧ Sbtw K (a.val v d) (p.val v d) (b.val v d) := by
      intro sa sb e1 e2 hsg
      have hne : v x - v y ≠ 0 := by rcases hsg with hh | hh <;> intro e <;> linarith [hh.1, hh.2]
      have hval : v (S.add x (S.neg y)) = v x - v y := by
        rw [h.toDomain.toRing.toSemi.add, h.toDomain.toRing.neg, sub_eq_add_neg]
      obtain ⟨t, t1, t2⟩ := h.toDomain.div_unwrap x (S.add x (S.neg y)) (by rw [hval]; exact hne) (isUnit_iff_ne_zero.2 (by rw [hval]; exact hne)).dvd
      rw [hval] at t2
      have ht : v t = v x / (v x - v y) := by field_simp; exact t2.symm
      obtain ⟨dv, d1, d2, d3⟩ := h.vecSub hd hb ha
      obtain ⟨m1, m2⟩ := h.vecScalarMul hd d2 t
      obtain ⟨p, p1, p2, p3⟩ := h.vecAdd hd ha m1
      refine ⟨p, ?_, p2, ?_, ?_⟩
      · unfold OrdOps.intersectPoint
        simp only [t1, hca, hcb, e1, e2, assertThat, decide_true, if_true, Option.bind_eq_bind, Option.bind_some, d1, p1]
      · rw [mem_iff_functional h2 h3, p3, m2, d3]
        have e : a.val v d + v t • (b.val v d - a.val v d) - p0.val v d =
            (a.val v d - p0.val v d) + v t • ((b.val v d - p0.val v d) - (a.val v d - p0.val v d)) := by
          congr 1
          rw [sub_sub_sub_cancel_right]
          abel
        rw [e, map_add, map_smul, map_sub L (_ - _) (_ - _), ← x2, ← y2, ht, smul_eq_mul]
        field_simp
        ring
      · have hp : p.val v d = AffineMap.lineMap (a.val v d) (b.val v d) (v t) := by
          rw [p3, m2, d3, AffineMap.lineMap_apply, vsub_eq_sub, vadd_eq_add, add_comm]
        rw [hp]
        have hab : a.val v d ≠ b.val v d := by
          intro e
          rw [e, ← y2] at x2
          rcases hsg with hh | hh <;> linarith [hh.1, hh.2]
        rw [sbtw_lineMap_iff]
        refine ⟨hab, ?_⟩
        rw [ht]
        rcases hsg with hh | hh
        · have h7 : v x - v y < 0 := by linarith [hh.1, hh.2]
          exact ⟨div_pos_of_neg_of_neg hh.1 h7, by rw [div_lt_one_of_neg h7]; linarith [hh.2]⟩
        · have h7 : 0 < v x - v y := by linarith [hh.1, hh.2]
          exact ⟨div_pos hh.1 h7, by rw [div_lt_one h7]; linarith [hh.2]⟩
    unfold OrdOps.intersectLine
    simp only [x1, y1, Option.bind_eq_bind, Option.bind_some, hca, hcb]
    by_cases c1 : S.sideOf x = .negative ∧ S.sideOf y = .positive
    · obtain ⟨p, p1, p2⟩ := key _ _ c1.1 c1.2 (.inl ⟨hx.2.2.1 c1.1, hy.1.1 c1.2⟩)
      refine ⟨⟨.negative, .positive, some p⟩, ?_, by rw [c1.1], by rw [c1.2], by simp, ?_⟩
      · simp only [c1.1, c1.2, p1]; rfl
      · intro q e
        simp only [Option.some.injEq] at e
        subst e
        exact p2
    by_cases c2 : S.sideOf x = .positive ∧ S.sideOf y = .negative
    · obtain ⟨p, p1, p2⟩ := key _ _ c2.1 c2.2 (.inr ⟨hx.1.1 c2.1, hy.2.2.1 c2.2⟩)
      refine ⟨⟨.positive, .negative, some p⟩, ?_, by rw [c2.1], by rw [c2.2], by simp, ?_⟩
      · simp only [c2.1, c2.2, p1]; rfl
      · intro q e
        simp only [Option.some.injEq] at e
        subst e
        exact p2
    refine ⟨⟨S.sideOf x, S.sideOf y, none⟩, ?_, rfl, rfl, ?_, by simp⟩
    · cases e1 : S.sideOf x <;> cases e2 : S.sideOf y <;> simp_all
    · simp only [true_iff]
      rintro (hh | hh)
      · exact c1 hh
      · exact c2 hh

/-- one facet, oriented towards the opposite vertex -/
theorem OrdOps.Models.orientedFacet {s : Simplex α} (hd : sp.dim = d + 1) (hs : s.Valid v d sp) (hl : s.points.length = d + 1) {k : Nat}
    (hk : k < s.points.length) :
    ∃ o, S.orientedFacet s k = some o ∧ o.Valid S v d sp ∧ o.simplex.points = s.points.eraseIdx k ∧
      (d ≠ 0 → ∃ f, o.orientation = some (f, s.points[k])) := by
  have hsub : (s.points.eraseIdx k).Sublist s.points := List.eraseIdx_sublist _ _
  have hv := hs.sublist hsub
  have hlen : (s.points.eraseIdx k).length = d := by rw [List.length_eraseIdx, if_pos hk, hl]; rfl
  have hnot : s.points[k].val v d ∉ affineSpan K (pointSet v d (s.points.eraseIdx k)) := by
    have h1 := hs.points.indep.notMem_affineSpan_diff ⟨k, hk⟩ Set.univ
    have h2 : pointsOf v d s.points '' (Set.univ \ {⟨k, hk⟩}) = pointSet v d (s.points.eraseIdx k) := by
      ext x
      constructor
      · rintro ⟨i, hi, rfl⟩
        refine ⟨s.points[i], ?_, rfl⟩
        rw [List.mem_eraseIdx_iff_getElem]
        exact ⟨i, i.2, by intro e; exact hi.2 (Fin.ext e), rfl⟩
      · rintro ⟨p, hp, rfl⟩
        rw [List.mem_eraseIdx_iff_getElem] at hp
        obtain ⟨i, hi, hik, rfl⟩ := hp
        exact ⟨⟨i, hi⟩, ⟨trivial, fun e => hik (by simpa using e)⟩, rfl⟩
    rw [h2] at h1
    exact h1
  rcases h.newPositive hd hv.points.mem (hs.points.mem _ (List.getElem_mem hk)) with ⟨h1, h2, h3, o, o1, o2, o3, o4⟩ | ⟨h1, h2⟩
  · refine ⟨o, ?_, o2, ?_, o4⟩
    · unfold OrdOps.orientedFacet
      simp only [List.getElem?_eq_getElem hk, Option.bind_eq_bind, Option.bind_some, hs.space, o1]
      rfl
    · apply List.Perm.eq_of_pairwise (le := fun a b : Vec α => toLex (a.val v d) < toLex (b.val v d)) _ o2.simplex.sorted hv.sorted o3
      intro a b _ _ ha hb
      exact absurd (ha.trans hb) (lt_irrefl _)
  · exact absurd ⟨hlen, hv.points.indep, hnot⟩ h1

theorem OrdOps.Models.orientedFacets {s : Simplex α} (hd : sp.dim = d + 1) (hs : s.Valid v d sp) (hl : s.points.length = d + 1) :
    ∃ os, S.orientedFacets s = some os ∧ os.length = d + 1 ∧ ∀ (k : Nat) (hk : k < os.length) (hk' : k < s.points.length),
      os[k].Valid S v d sp ∧ os[k].simplex.points = s.points.eraseIdx k ∧ (d ≠ 0 → ∃ f, os[k].orientation = some (f, s.points[k])) := by
  obtain ⟨os, e1, e2, e3⟩ := mapM_fin (l := List.range s.points.length) (f := S.orientedFacet s)
    (P := fun k o => ∀ hk' : k < s.points.length, o.Valid S v d sp ∧ o.simplex.points = s.points.eraseIdx k ∧
      (d ≠ 0 → ∃ f, o.orientation = some (f, s.points[k]))) (by
      intro i hi
      have hi' : i < s.points.length := by simpa using hi
      obtain ⟨o, o1, o2, o3, o4⟩ := h.orientedFacet hd hs hl hi'
      exact ⟨o, by simpa using o1, fun _ => ⟨o2, o3, o4⟩⟩)
  refine ⟨os, ?_, by simpa [hl] using e2, fun k hk hk' => e3 k hk hk'⟩
  unfold OrdOps.orientedFacets Simplex.n
  rw [hs.space, hd, hl]
  simp only [assertThat, beq_self_eq_true, if_true, Option.bind_eq_bind, Option.bind_some]
  rw [← hl, e1]

end

end Verif.Geometry
