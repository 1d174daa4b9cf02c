import Verif.Proofs.HullWire

/-! # Intersecting a hull with a hyperplane or a half-space -/

namespace Verif.Geometry

open Classical Verif.Rings

noncomputable local instance (priority := 5000) decPt10 (K : Type) (d : Nat) : DecidableEq (Fin d → K) := fun a b => Classical.propDecidable (a = b)

/-- the numbers on a side -/
def Side.Holds {K : Type} [Zero K] [LT K] (side : Side) (x : K) : Prop :=
  match side with
  | .positive => 0 < x
  | .neutral => x = 0
  | .negative => x < 0

/-- the points on a side, with the points on the hyperplane -/
def Side.region {K E : Type} [Zero K] [LE K] (side : Side) (A : E → K) : Set E :=
  match side with
  | .positive => {x | 0 ≤ A x}
  | .neutral => {x | A x = 0}
  | .negative => {x | A x ≤ 0}

section
variable {α K : Type} [Field K] [LinearOrder K] [IsStrictOrderedRing K]

/-- `A` is the function whose sign is the side of a point -/
def OSimplex.SideFun (S : OrdOps α) (v : α → K) (D : Nat) (sp : Space) (o : OSimplex α) (A : (Fin D → K) →ᵃ[K] K) : Prop :=
  ∀ x : Vec α, x.In sp → ∃ y, S.classifyQuant o x = some y ∧ v y = A (x.val v D)

variable {S : OrdOps α} {v : α → K} {D n : Nat} {sp : Space}

theorem OSimplex.Valid.sideFun (h : S.Models v) {o : OSimplex α} (hd : sp.dim = D + 1) (ho : o.Valid S v D sp) :
    ∃ A, o.SideFun S v D sp A ∧ (∀ x, x ∈ o.simplex.span v D → A x = 0) ∧ (D ≠ 0 → ∀ x, A x = 0 → x ∈ o.simplex.span v D) ∧ (D = 0 → ∀ x, A x = 0) := by
  by_cases h0 : D = 0
  · refine ⟨AffineMap.const K _ 0, ?_, fun x _ => rfl, fun hh => absurd h0 hh, fun _ x => rfl⟩
    intro x hx
    refine ⟨S.zero, ?_, h.toDomain.toRing.toSemi.zero⟩
    unfold OrdOps.classifyQuant
    rw [ho.empty.2 h0]
  · obtain ⟨⟨f, r⟩, hr⟩ := Option.ne_none_iff_exists'.1 (fun hh => h0 (ho.empty.1 hh))
    obtain ⟨L, p0, h1, h2, h3, h4, h5, -⟩ := ho.functional h hd hr
    have hA : ∀ x, (L.toAffineMap - AffineMap.const K _ (L (p0.val v D)) : (Fin D → K) →ᵃ[K] K) x = L (x - p0.val v D) := by
      intro x; rw [map_sub]; rfl
    refine ⟨L.toAffineMap - AffineMap.const K _ (L (p0.val v D)), ?_, ?_, ?_, fun hh => absurd hh h0⟩
    · intro x hx
      obtain ⟨y, y1, y2⟩ := h5 x hx
      exact ⟨y, y1, by rw [y2, hA]⟩
    · intro x hx
      rw [hA]; exact (mem_iff_functional h2 h3 x).1 hx
    · intro _ x hx
      rw [hA] at hx
      exact (mem_iff_functional h2 h3 x).2 hx

theorem OSimplex.SideFun.classify (h : S.Models v) {o : OSimplex α} {A : (Fin D → K) →ᵃ[K] K} (hA : o.SideFun S v D sp A) {x : Vec α} (hx : x.In sp) :
    ∃ side, S.classify o x = some side ∧ ∀ s, side = s ↔ s.Holds (A (x.val v D)) := by
  obtain ⟨y, y1, y2⟩ := hA x hx
  have hs := h.sideOf y
  rw [y2] at hs
  refine ⟨S.sideOf y, by unfold OrdOps.classify; rw [y1]; rfl, ?_⟩
  intro s
  cases s
  · exact hs.1
  · exact hs.2.1
  · exact hs.2.2

theorem OrdOps.Models.pairEq (h : S.Models v) (hd : sp.dim = D + 1) {x y : Vec α × Vec α} (hx : x.1.In sp ∧ x.2.In sp) (hy : y.1.In sp ∧ y.2.In sp) :
    S.pairEq x y = some (decide ((x.1.val v D, x.2.val v D) = (y.1.val v D, y.2.val v D))) := by
  unfold OrdOps.pairEq
  simp only [h.vecEq hd hx.1 hy.1, h.vecEq hd hx.2 hy.2, Option.bind_eq_bind, Option.bind_some]
  by_cases e1 : x.1.val v D = y.1.val v D
  · simp [e1]
  · simp [e1]

theorem pointSet_iff {l : List (Vec α)} {x : Fin D → K} : x ∈ pointSet v D l ↔ x ∈ l.map fun p => p.val v D := by
  unfold pointSet; rw [List.mem_map]; rfl

theorem edgeSet_iff {l : List (Vec α × Vec α)} {x : (Fin D → K) × (Fin D → K)} : x ∈ edgeSet v D l ↔ x ∈ l.map fun e => (e.1.val v D, e.2.val v D) := by
  unfold edgeSet; rw [List.mem_map]; rfl

theorem pointSet_perm' {l l' : List (Vec α)} (hp : l.Perm l') : pointSet v D l = pointSet v D l' := by
  ext x; simp only [pointSet, Set.mem_setOf_eq, hp.mem_iff]

theorem edgeSet_perm {l l' : List (Vec α × Vec α)} (hp : l.Perm l') : edgeSet v D l = edgeSet v D l' := by
  ext x; simp only [edgeSet, Set.mem_setOf_eq, hp.mem_iff]

/-- adding points to a hash set -/
theorem OrdOps.Models.addPoints (h : S.Models v) (hd : sp.dim = D + 1) {l m : List (Vec α)} (hl : ∀ p ∈ l, p.In sp) (hm : ∀ p ∈ m, p.In sp)
    (hn : (m.map fun p => p.val v D).Nodup) :
    ∃ r, l.foldlM (hashInsert S.vecEq) m = some r ∧ (∀ p ∈ r, p ∈ m ∨ p ∈ l) ∧ (∀ p ∈ r, p.In sp) ∧ (r.map fun p => p.val v D).Nodup ∧
      pointSet v D r = pointSet v D m ∪ pointSet v D l := by
  obtain ⟨r, r1, r2, r3, r4⟩ := hashInsert_fold (eq := S.vecEq) (P := fun p => p.In sp) (key := fun p : Vec α => p.val v D) (fun x y hx hy => by
        rw [h.vecEq hd hx hy]; congr) hl hm hn
  refine ⟨r, r1, r2, ?_, r3, ?_⟩
  · intro p hp
    rcases r2 p hp with hh | hh
    · exact hm p hh
    · exact hl p hh
  · ext x
    rw [Set.mem_union, pointSet_iff, pointSet_iff, pointSet_iff]
    exact r4 x

theorem OrdOps.Models.addEdges (h : S.Models v) (hd : sp.dim = D + 1) {l m : List (Vec α × Vec α)} (hl : ∀ e ∈ l, e.1.In sp ∧ e.2.In sp)
    (hm : ∀ e ∈ m, e.1.In sp ∧ e.2.In sp) (hn : (m.map fun e => (e.1.val v D, e.2.val v D)).Nodup) :
    ∃ r, l.foldlM (hashInsert S.pairEq) m = some r ∧ (∀ e ∈ r, e.1.In sp ∧ e.2.In sp) ∧ (r.map fun e => (e.1.val v D, e.2.val v D)).Nodup ∧
      edgeSet v D r = edgeSet v D m ∪ edgeSet v D l := by
  obtain ⟨r, r1, r2, r3, r4⟩ := hashInsert_fold (eq := S.pairEq) (P := fun e => e.1.In sp ∧ e.2.In sp) (key := fun e : Vec α × Vec α => (e.1.val v D, e.2.val v D))
    (fun x y hx hy => by rw [h.pairEq hd hx hy]) hl hm hn
  refine ⟨r, r1, ?_, r3, ?_⟩
  · intro p hp
    rcases r2 p hp with hh | hh
    · exact hm p hh
    · exact hl p hh
  · ext x
    rw [Set.mem_union, edgeSet_iff, edgeSet_iff, edgeSet_iff]
    exact r4 x

/-- the points on one side -/
theorem OSimplex.SideFun.sidePoints (h : S.Models v) (hd : sp.dim = D + 1) {o : OSimplex α} {A : (Fin D → K) →ᵃ[K] K} (hA : o.SideFun S v D sp A)
    (side : Side) {pts : List (Vec α)} (hp : ∀ p ∈ pts, p.In sp) :
    ∃ r, S.sidePoints o side pts = some r ∧ (∀ p ∈ r, p.In sp) ∧ (r.map fun p => p.val v D).Nodup ∧
      pointSet v D r = {x ∈ pointSet v D pts | side.Holds (A x)} := by
  haveI : Nonempty Side := ⟨.neutral⟩
  obtain ⟨G, G1, G2⟩ := mapM_choose (L := pts) (f := S.classify o) (Q := fun p sd => ∀ s, sd = s ↔ s.Holds (A (p.val v D))) (fun p hpt => hA.classify h (hp p hpt))
  have hmem : ∀ p, p ∈ (((pts.zip (pts.map G)).filter fun e => e.2 = side).map Prod.fst) ↔ p ∈ pts ∧ side.Holds (A (p.val v D)) := by
    intro p
    have hz : pts.zip (pts.map G) = pts.map fun p => (p, G p) := by
      rw [List.zip_map_right, List.zip_eq_zipWith]
      simp [List.zipWith_self]
    rw [hz]
    simp only [List.mem_map, List.mem_filter, decide_eq_true_eq]
    constructor
    · rintro ⟨e, ⟨⟨q, hq, rfl⟩, h2⟩, rfl⟩
      exact ⟨hq, (G2 q hq side).1 h2⟩
    · rintro ⟨hp, hs⟩
      exact ⟨_, ⟨⟨p, hp, rfl⟩, (G2 p hp side).2 hs⟩, rfl⟩
  obtain ⟨r, r1, r2, r3, r4, r5⟩ := h.addPoints hd (l := ((pts.zip (pts.map G)).filter fun e => e.2 = side).map Prod.fst) (m := [])
    (fun p hp' => hp p ((hmem p).1 hp').1) (by simp) (by simp)
  refine ⟨r, ?_, r3, r4, ?_⟩
  · unfold OrdOps.sidePoints
    rw [G1]
    exact r1
  · rw [r5, pointSet_nil, Set.empty_union]
    ext x
    simp only [pointSet, Set.mem_setOf_eq, Set.mem_sep_iff]
    constructor
    · rintro ⟨p, hp', rfl⟩
      exact ⟨⟨p, ((hmem p).1 hp').1, rfl⟩, ((hmem p).1 hp').2⟩
    · rintro ⟨⟨p, hp', rfl⟩, hs⟩
      exact ⟨p, (hmem p).2 ⟨hp', hs⟩, rfl⟩

/-- what one edge gives -/
structure EdgeCut (v : α → K) (D : Nat) (sp : Space) (A : (Fin D → K) →ᵃ[K] K) (e : Vec α × Vec α)
    (r : List (Vec α × Vec α) × List (Vec α × Vec α) × List (Vec α)) : Prop where
  pos : ∀ x ∈ r.1, (x.1.In sp ∧ x.2.In sp) ∧ (0 ≤ A (x.1.val v D) ∧ 0 ≤ A (x.2.val v D)) ∧
    x.1.val v D ∈ segment K (e.1.val v D) (e.2.val v D) ∧ x.2.val v D ∈ segment K (e.1.val v D) (e.2.val v D)
  neg : ∀ x ∈ r.2.1, (x.1.In sp ∧ x.2.In sp) ∧ (A (x.1.val v D) ≤ 0 ∧ A (x.2.val v D) ≤ 0) ∧
    x.1.val v D ∈ segment K (e.1.val v D) (e.2.val v D) ∧ x.2.val v D ∈ segment K (e.1.val v D) (e.2.val v D)
  mid : ∀ m ∈ r.2.2, m.In sp ∧ A (m.val v D) = 0 ∧ m.val v D ∈ segment K (e.1.val v D) (e.2.val v D)
  same : 0 ≤ A (e.1.val v D) → 0 ≤ A (e.2.val v D) → ¬ (A (e.1.val v D) = 0 ∧ A (e.2.val v D) = 0) → e ∈ r.1
  same' : A (e.1.val v D) ≤ 0 → A (e.2.val v D) ≤ 0 → ¬ (A (e.1.val v D) = 0 ∧ A (e.2.val v D) = 0) → e ∈ r.2.1
  cross : 0 < A (e.1.val v D) → A (e.2.val v D) < 0 → ∃ m ∈ r.2.2, (e.1, m) ∈ r.1 ∧ (m, e.2) ∈ r.2.1
  cross' : A (e.1.val v D) < 0 → 0 < A (e.2.val v D) → ∃ m ∈ r.2.2, (e.2, m) ∈ r.1 ∧ (m, e.1) ∈ r.2.1

theorem OSimplex.SideFun.edge (h : S.Models v) (hd : sp.dim = D + 1) {o : OSimplex α} (ho : o.Valid S v D sp) {A : (Fin D → K) →ᵃ[K] K}
    (hA : o.SideFun S v D sp A) (hA0 : ∀ x, x ∈ o.simplex.span v D → A x = 0) {e : Vec α × Vec α} (he : e.1.In sp ∧ e.2.In sp) :
    ∃ r, (do
      let r ← S.intersectLine o e.1 e.2
      edgeParts e.1 e.2 r) = some r ∧ EdgeCut v D sp A e r := by
  obtain ⟨a, b⟩ := e
  obtain ⟨ha, hb⟩ := he
  obtain ⟨res, r1, r2, r3, r4, r5⟩ := ho.intersectLine h hd ha hb
  obtain ⟨sa, a1, a2⟩ := hA.classify h ha
  obtain ⟨sb, b1, b2⟩ := hA.classify h hb
  obtain rfl : res.first = sa := by rw [r2] at a1; exact Option.some.inj a1
  obtain rfl : res.second = sb := by rw [r3] at b1; exact Option.some.inj b1
  simp only [r1, Option.bind_eq_bind, Option.bind_some]
  have sl := left_mem_segment K (a.val v D) (b.val v D)
  have sr := right_mem_segment K (a.val v D) (b.val v D)
  have hA1 := a2 res.first
  have hB1 := b2 res.second
  simp only [true_iff] at hA1 hB1
  clear a2 b2
  obtain ⟨s1, s2, q⟩ := res
  simp only at hA1 hB1 r4 r5 a1 b1 ⊢
  have e1 : ∀ x ∈ [(a, b)], x = (a, b) := by simp
  cases s1 <;> cases s2 <;> simp only [Side.Holds] at hA1 hB1
  case positive.positive =>
    exact ⟨([(a, b)], [], []), rfl, fun x hx => by rw [e1 x hx]; exact ⟨⟨ha, hb⟩, ⟨hA1.le, hB1.le⟩, sl, sr⟩, by simp, by simp, by simp,
      fun h1 => absurd h1 (not_le.2 hA1), fun _ h1 => absurd h1 (not_lt.2 hB1.le), fun h1 => absurd h1 (not_lt.2 hA1.le)⟩
  case positive.neutral =>
    exact ⟨([(a, b)], [], []), rfl, fun x hx => by rw [e1 x hx]; exact ⟨⟨ha, hb⟩, ⟨hA1.le, hB1.ge⟩, sl, sr⟩, by simp, by simp, by simp,
      fun h1 => absurd h1 (not_le.2 hA1), fun _ h1 => absurd h1 (not_lt.2 hB1.ge), fun h1 => absurd h1 (not_lt.2 hA1.le)⟩
  case neutral.positive =>
    exact ⟨([(a, b)], [], []), rfl, fun x hx => by rw [e1 x hx]; exact ⟨⟨ha, hb⟩, ⟨hA1.ge, hB1.le⟩, sl, sr⟩, by simp, by simp, by simp,
      fun _ h1 => absurd h1 (not_le.2 hB1), fun h1 => absurd h1 (not_lt.2 hA1.le), fun h1 => absurd h1 (not_lt.2 hA1.ge)⟩
  case neutral.neutral =>
    exact ⟨([], [], []), rfl, by simp, by simp, by simp, fun _ _ hn => absurd ⟨hA1, hB1⟩ hn, fun _ _ hn => absurd ⟨hA1, hB1⟩ hn,
      fun h1 => absurd h1 (not_lt.2 hA1.le), fun h1 => absurd h1 (not_lt.2 hA1.ge)⟩
  case negative.negative =>
    exact ⟨([], [(a, b)], []), rfl, by simp, fun x hx => by rw [e1 x hx]; exact ⟨⟨ha, hb⟩, ⟨hA1.le, hB1.le⟩, sl, sr⟩, by simp,
      fun h1 => absurd h1 (not_le.2 hA1), by simp, fun h1 => absurd h1 (not_lt.2 hA1.le), fun _ h1 => absurd h1 (not_lt.2 hB1.le)⟩
  case negative.neutral =>
    exact ⟨([], [(a, b)], []), rfl, by simp, fun x hx => by rw [e1 x hx]; exact ⟨⟨ha, hb⟩, ⟨hA1.le, hB1.le⟩, sl, sr⟩, by simp,
      fun h1 => absurd h1 (not_le.2 hA1), by simp, fun h1 => absurd h1 (not_lt.2 hA1.le), fun _ h1 => absurd h1 (not_lt.2 hB1.le)⟩
  case neutral.negative =>
    exact ⟨([], [(a, b)], []), rfl, by simp, fun x hx => by rw [e1 x hx]; exact ⟨⟨ha, hb⟩, ⟨hA1.le, hB1.le⟩, sl, sr⟩, by simp,
      fun _ h1 => absurd h1 (not_le.2 hB1), by simp, fun h1 => absurd h1 (not_lt.2 hA1.le), fun h1 => absurd h1 (not_lt.2 hA1.ge)⟩
  case positive.negative =>
    obtain ⟨m, rfl⟩ := Option.ne_none_iff_exists'.1 (fun hh => r4.1 hh (.inr ⟨rfl, rfl⟩))
    obtain ⟨m1, m2, m3⟩ := r5 m rfl
    have hm0 := hA0 _ m2
    have hms : m.val v D ∈ segment K (a.val v D) (b.val v D) := mem_segment_iff_wbtw.2 m3.wbtw
    refine ⟨([(a, m)], [(m, b)], [m]), rfl, ?_, ?_, ?_, fun _ h1 => absurd h1 (not_le.2 hB1), fun h1 => absurd h1 (not_le.2 hA1), by simp,
      fun h1 => absurd h1 (not_lt.2 hA1.le)⟩
    · intro x hx
      rw [List.mem_singleton.1 hx]
      exact ⟨⟨ha, m1⟩, ⟨hA1.le, hm0.ge⟩, sl, hms⟩
    · intro x hx
      rw [List.mem_singleton.1 hx]
      exact ⟨⟨m1, hb⟩, ⟨hm0.le, hB1.le⟩, hms, sr⟩
    · intro x hx
      rw [List.mem_singleton.1 hx]
      exact ⟨m1, hm0, hms⟩
  case negative.positive =>
    obtain ⟨m, rfl⟩ := Option.ne_none_iff_exists'.1 (fun hh => r4.1 hh (.inl ⟨rfl, rfl⟩))
    obtain ⟨m1, m2, m3⟩ := r5 m rfl
    have hm0 := hA0 _ m2
    have hms : m.val v D ∈ segment K (a.val v D) (b.val v D) := mem_segment_iff_wbtw.2 m3.wbtw
    refine ⟨([(b, m)], [(m, a)], [m]), rfl, ?_, ?_, ?_, fun h1 => absurd h1 (not_le.2 hA1), fun _ h1 => absurd h1 (not_le.2 hB1),
      fun h1 => absurd h1 (not_lt.2 hA1.le), by simp⟩
    · intro x hx
      rw [List.mem_singleton.1 hx]
      exact ⟨⟨hb, m1⟩, ⟨hB1.le, hm0.ge⟩, sr, hms⟩
    · intro x hx
      rw [List.mem_singleton.1 hx]
      exact ⟨⟨m1, ha⟩, ⟨hm0.le, hA1.le⟩, hms, sl⟩
    · intro x hx
      rw [List.mem_singleton.1 hx]
      exact ⟨m1, hm0, hms⟩

theorem cross_unique {E : Type} [AddCommGroup E] [Module K E] {A : E →ᵃ[K] K} {a b y m : E} (hab : A a * A b < 0) (hy : y ∈ segment K a b) (hm : m ∈ segment K a b)
    (hy0 : A y = 0) (hm0 : A m = 0) : y = m := by
  obtain ⟨s, -, -, rfl⟩ := segment_line.1 hy
  obtain ⟨t, -, -, rfl⟩ := segment_line.1 hm
  rw [AffineMap.apply_lineMap, AffineMap.lineMap_apply_ring'] at hy0 hm0
  have hne : A b - A a ≠ 0 := by
    intro hh
    rw [sub_eq_zero] at hh
    rw [hh] at hab
    exact absurd hab (not_lt.2 (mul_self_nonneg _))
  have : s = t := mul_right_cancel₀ hne (by linarith)
  rw [this]

theorem WireOf.intersect (h : S.Models v) {o : Oracle α} (ho : o.Fair) {w : Wireframe α} {X : Set (Fin D → K)} (hw : WireOf v D w X) {hyp : OSimplex α}
    (hv : hyp.Valid S v D w.ambient) {A : (Fin D → K) →ᵃ[K] K} (hA : hyp.SideFun S v D w.ambient A) (hA0 : ∀ x, x ∈ hyp.simplex.span v D → A x = 0) (region : Side) :
    ∃ w', S.wireIntersect o w hyp region = some w' ∧ WireOf v D w' (X ∩ region.region A) ∧ w'.ambient = w.ambient := by
  have hd := hw.dim
  obtain ⟨pos, p1, p2, p3, p4⟩ := hA.sidePoints h hd .positive hw.points
  obtain ⟨mid, m1, m2, m3, m4⟩ := hA.sidePoints h hd .neutral hw.points
  obtain ⟨neg, n1, n2, n3, n4⟩ := hA.sidePoints h hd .negative hw.points
  obtain ⟨G, G1, G2⟩ := mapM_choose (L := w.edges) (f := fun e => (do
      let r ← S.intersectLine hyp e.1 e.2
      edgeParts e.1 e.2 r)) (Q := fun e r => EdgeCut v D w.ambient A e r) (fun e he => hA.edge h hd hv hA0 (hw.edges e he))
  have hmem : ∀ {β : Type} (g : List (Vec α × Vec α) × List (Vec α × Vec α) × List (Vec α) → List β) (x : β),
      x ∈ ((w.edges.map G).flatMap g) ↔ ∃ e ∈ w.edges, x ∈ g (G e) := by
    intro β g x
    simp only [List.mem_flatMap, List.mem_map]
    constructor
    · rintro ⟨_, ⟨e, he, rfl⟩, hx⟩; exact ⟨e, he, hx⟩
    · rintro ⟨e, he, hx⟩; exact ⟨_, ⟨e, he, rfl⟩, hx⟩
  obtain ⟨pe, pe1, pe2, pe3, pe4⟩ := h.addEdges hd (l := (w.edges.map G).flatMap fun x => x.1) (m := []) (fun x hx => by
    obtain ⟨e, he, hx⟩ := (hmem _ x).1 hx
    exact ((G2 e he).pos x hx).1) (by simp) (by simp)
  obtain ⟨ne, ne1, ne2, ne3, ne4⟩ := h.addEdges hd (l := (w.edges.map G).flatMap fun x => x.2.1) (m := []) (fun x hx => by
    obtain ⟨e, he, hx⟩ := (hmem _ x).1 hx
    exact ((G2 e he).neg x hx).1) (by simp) (by simp)
  obtain ⟨mm, mm1, -, mm2, mm3, mm4⟩ := h.addPoints hd (l := (w.edges.map G).flatMap fun x => x.2.2) (m := mid) (fun x hx => by
    obtain ⟨e, he, hx⟩ := (hmem _ x).1 hx
    exact ((G2 e he).mid x hx).1) m2 m3
  rw [edgeSet_nil, Set.empty_union] at pe4 ne4
  have hed : ∀ e ∈ w.edges, (e.1.val v D, e.2.val v D) ∈ edgeSet v D w.edges := fun e he => ⟨e, he, rfl⟩
  have hseg : ∀ e ∈ w.edges, segment K (e.1.val v D) (e.2.val v D) ⊆ X := fun e he =>
    hw.sec.convex.segment_subset (hw.sec.edges _ (hed e he)).1 (hw.sec.edges _ (hed e he)).2
  -- the middle
  have hmX : pointSet v D mm ⊆ X ∩ {x | A x = 0} := by
    rw [mm4, m4]
    rintro x (⟨hx1, hx2⟩ | ⟨p, hp, rfl⟩)
    · exact ⟨hw.sec.sub hx1, hx2⟩
    · obtain ⟨e, he, hp⟩ := (hmem _ p).1 hp
      obtain ⟨-, q1, q2⟩ := (G2 e he).mid p hp
      exact ⟨hseg e he q2, q1⟩
  have hcut : cutPoints (pointSet v D w.points) (edgeSet v D w.edges) A ⊆ pointSet v D mm := by
    rintro y ⟨hy0, hy | ⟨_, ⟨e, he, rfl⟩, hneg, hy⟩⟩
    · rw [mm4, m4]; exact .inl ⟨hy, hy0⟩
    · rw [mm4]
      right
      have hz : ∃ m ∈ (G e).2.2, True := by
        rcases mul_neg_iff.1 hneg with ⟨a1, a2⟩ | ⟨a1, a2⟩
        · obtain ⟨m, hm, -⟩ := (G2 e he).cross a1 a2
          exact ⟨m, hm, trivial⟩
        · obtain ⟨m, hm, -⟩ := (G2 e he).cross' a1 a2
          exact ⟨m, hm, trivial⟩
      obtain ⟨m, hm, -⟩ := hz
      obtain ⟨-, q1, q2⟩ := (G2 e he).mid m hm
      exact ⟨m, (hmem _ m).2 ⟨e, he, hm⟩, (cross_unique hneg hy q2 hy0 q1).symm⟩
  have hconv0 : Convex K {x | A x = 0} := by
    intro y hy z hz a b ha hb hab
    have h2 : a • y + b • z = AffineMap.lineMap y z b := by
      rw [AffineMap.lineMap_apply_module, ← hab]; simp
    have hy' : A y = 0 := hy
    have hz' : A z = 0 := hz
    rw [h2, Set.mem_setOf_eq, AffineMap.apply_lineMap, hy', hz']
    simp
  have hmid : convexHull K (pointSet v D mm) = X ∩ {x | A x = 0} := by
    apply Set.Subset.antisymm
    · exact convexHull_min hmX (hw.sec.convex.inter hconv0)
    · rintro x ⟨hx, hx0⟩
      exact convexHull_mono hcut (hw.sec.cut A x hx hx0)
  have hperm := ho.points [] mm
  obtain ⟨hull, u1, u2, u3⟩ := h.hullNew (ho.sub 0) hd (pts := o.points [] mm) (fun p hp => mm2 p (hperm.mem_iff.1 hp))
  obtain ⟨m, w1, w2, w3⟩ := u2.wireframe h (ho.sub 1)
  rw [pointSet_perm' hperm, hmid] at w2
  rw [u3] at w3
  have hassert : (pos.isEmpty || neg.isEmpty || !m.points.isEmpty) = true := by
    by_contra hh
    simp only [Bool.or_eq_true, Bool.not_eq_true', not_or, Bool.not_eq_true, List.isEmpty_eq_false_iff_exists_mem] at hh
    obtain ⟨⟨⟨a, ha⟩, ⟨b, hb⟩⟩, hh⟩ := hh
    have hh : m.points = [] := by
      cases hm : m.points with
      | nil => rfl
      | cons => rw [hm] at hh; simp at hh
    have ha' : a.val v D ∈ pointSet v D pos := ⟨a, ha, rfl⟩
    have hb' : b.val v D ∈ pointSet v D neg := ⟨b, hb, rfl⟩
    rw [p4] at ha'
    rw [n4] at hb'
    have e0 : X ∩ {x | A x = 0} = ∅ := by
      rw [← w2.sec.hull, hh, pointSet_nil, convexHull_empty]
    have ha1 : 0 < A (a.val v D) := ha'.2
    have hb1 : A (b.val v D) < 0 := hb'.2
    have hpos : 0 < A (a.val v D) - A (b.val v D) := by linarith
    have hz : AffineMap.lineMap (a.val v D) (b.val v D) (A (a.val v D) / (A (a.val v D) - A (b.val v D))) ∈ X ∩ {x | A x = 0} := by
      refine ⟨hw.sec.convex.segment_subset (hw.sec.sub ha'.1) (hw.sec.sub hb'.1) (segment_line.2 ⟨_, div_nonneg ha1.le hpos.le, ?_, rfl⟩), ?_⟩
      · rw [div_le_one hpos]; linarith
      · rw [Set.mem_setOf_eq, AffineMap.apply_lineMap, AffineMap.lineMap_apply_ring']
        field_simp
        ring
    rw [e0] at hz
    exact hz
  have hwp : ∀ p ∈ m.points, p.In w.ambient := fun p hp => w3 ▸ w2.points p hp
  have hwe : ∀ e ∈ m.edges, e.1.In w.ambient ∧ e.2.In w.ambient := fun e he => w3 ▸ w2.edges e he
  obtain ⟨P1, a1, -, a2, a3, a4⟩ := h.addPoints hd (l := m.points) (m := []) hwp (by simp) (by simp)
  obtain ⟨E1, b1, b2, b3, b4⟩ := h.addEdges hd (l := m.edges) (m := []) hwe (by simp) (by simp)
  rw [pointSet_nil, Set.empty_union] at a4
  rw [edgeSet_nil, Set.empty_union] at b4
  unfold OrdOps.wireIntersect
  simp only [Option.bind_eq_bind] at G1
  simp only [p1, m1, n1, G1, pe1, ne1, mm1, u1, w1, a1, b1, Option.bind_eq_bind, Option.bind_some]
  rw [hassert]
  simp only [assertThat, if_true, Option.bind_some]
  cases region with
  | neutral =>
    refine ⟨_, rfl, ⟨hd, ?_, ?_, ?_⟩, rfl⟩
    · intro p hp; exact a2 p ((ho.points _ _).mem_iff.1 hp)
    · intro p hp; exact b2 p ((ho.edges _ _).mem_iff.1 hp)
    · simp only
      rw [pointSet_perm' (ho.points _ _), edgeSet_perm (ho.edges _ _), a4, b4]
      exact w2.sec
  | positive =>
    have hq1 := ho.points [0] pos
    have hq2 := ho.edges [0] pe
    obtain ⟨P2, c1, -, c2, c3, c4⟩ := h.addPoints hd (l := o.points [0] pos) (m := P1) (fun p hp => p2 p (hq1.mem_iff.1 hp)) a2 a3
    obtain ⟨E2, d1, d2, d3, d4⟩ := h.addEdges hd (l := o.edges [0] pe) (m := E1) (fun p hp => pe2 p (hq2.mem_iff.1 hp)) b2 b3
    rw [pointSet_perm' hq1, a4, p4] at c4
    rw [edgeSet_perm hq2, b4, pe4] at d4
    simp only [c1, d1, Option.bind_some]
    refine ⟨_, rfl, ⟨hd, ?_, ?_, ?_⟩, rfl⟩
    · intro p hp; exact c2 p ((ho.points _ _).mem_iff.1 hp)
    · intro p hp; exact d2 p ((ho.edges _ _).mem_iff.1 hp)
    · simp only
      rw [pointSet_perm' (ho.points _ _), edgeSet_perm (ho.edges _ _), c4, d4]
      refine hw.sec.clip (A := A) w2.sec (fun x hx => .inl hx) (fun x hx hx0 => .inr ⟨hx, hx0⟩) ?_ (fun x hx => .inl hx) ?_ ?_ ?_ ?_
      · rintro x (hx | ⟨hx, hx0⟩)
        · have := w2.sec.sub hx
          exact ⟨this.1, (this.2 : A x = 0).ge⟩
        · exact ⟨hw.sec.sub hx, (hx0 : 0 < A x).le⟩
      · rintro _ ⟨e, he, rfl⟩ x1 x2 x3
        exact .inr ⟨e, (hmem _ e).2 ⟨e, he, (G2 e he).same x1 x2 x3⟩, rfl⟩
      · rintro _ ⟨e, he, rfl⟩ x1 x2
        obtain ⟨z, z1, z2, z3⟩ := (G2 e he).cross x1 x2
        obtain ⟨-, y1, y2⟩ := (G2 e he).mid z z1
        exact ⟨_, y2, y1, .inl (.inr ⟨_, (hmem _ _).2 ⟨e, he, z2⟩, rfl⟩)⟩
      · rintro _ ⟨e, he, rfl⟩ x1 x2
        obtain ⟨z, z1, z2, z3⟩ := (G2 e he).cross' x1 x2
        obtain ⟨-, y1, y2⟩ := (G2 e he).mid z z1
        exact ⟨_, y2, y1, .inl (.inr ⟨_, (hmem _ _).2 ⟨e, he, z2⟩, rfl⟩)⟩
      · rintro x (hx | ⟨y, hy, rfl⟩)
        · have := w2.sec.edges x hx
          exact ⟨⟨this.1.1, (this.1.2 : A x.1 = 0).ge⟩, ⟨this.2.1, (this.2.2 : A x.2 = 0).ge⟩⟩
        · obtain ⟨e, he, hy⟩ := (hmem _ y).1 hy
          obtain ⟨-, ⟨k1, k2⟩, k3, k4⟩ := (G2 e he).pos y hy
          exact ⟨⟨hseg e he k3, k1⟩, ⟨hseg e he k4, k2⟩⟩
  | negative =>
    have hq1 := ho.points [0] neg
    have hq2 := ho.edges [0] ne
    obtain ⟨P2, c1, -, c2, c3, c4⟩ := h.addPoints hd (l := o.points [0] neg) (m := P1) (fun p hp => n2 p (hq1.mem_iff.1 hp)) a2 a3
    obtain ⟨E2, d1, d2, d3, d4⟩ := h.addEdges hd (l := o.edges [0] ne) (m := E1) (fun p hp => ne2 p (hq2.mem_iff.1 hp)) b2 b3
    rw [pointSet_perm' hq1, a4, n4] at c4
    rw [edgeSet_perm hq2, b4, ne4] at d4
    simp only [c1, d1, Option.bind_some]
    have hB : ∀ x, (-A) x = - A x := fun x => rfl
    have hreg : Side.negative.region A = {x | 0 ≤ (-A) x} := by
      ext x; simp only [Side.region, Set.mem_setOf_eq, hB]; constructor <;> intro hh <;> linarith
    have hreg0 : {x | A x = 0} = {x | (-A) x = 0} := by
      ext x; simp only [Set.mem_setOf_eq, hB]; constructor <;> intro hh <;> linarith
    refine ⟨_, rfl, ⟨hd, ?_, ?_, ?_⟩, rfl⟩
    · intro p hp; exact c2 p ((ho.points _ _).mem_iff.1 hp)
    · intro p hp; exact d2 p ((ho.edges _ _).mem_iff.1 hp)
    · simp only
      rw [pointSet_perm' (ho.points _ _), edgeSet_perm (ho.edges _ _), c4, d4, hreg]
      have hms := w2.sec
      rw [hreg0] at hms
      refine hw.sec.clip (A := -A) hms (fun x hx => .inl hx) (fun x hx hx0 => .inr ⟨hx, ?_⟩) ?_ (fun x hx => .inl hx) ?_ ?_ ?_ ?_
      · rw [hB] at hx0
        show A x < 0
        linarith
      · rintro x (hx | ⟨hx, hx0⟩)
        · have := hms.sub hx
          exact ⟨this.1, (this.2 : (-A) x = 0).ge⟩
        · refine ⟨hw.sec.sub hx, ?_⟩
          have : A x < 0 := hx0
          rw [Set.mem_setOf_eq, hB]; linarith
      · rintro _ ⟨e, he, rfl⟩ x1 x2 x3
        simp only [hB] at x1 x2 x3
        exact .inr ⟨e, (hmem _ e).2 ⟨e, he, (G2 e he).same' (by linarith) (by linarith) (fun hh => x3 ⟨by linarith [hh.1], by linarith [hh.2]⟩)⟩, rfl⟩
      · rintro _ ⟨e, he, rfl⟩ x1 x2
        simp only [hB] at x1 x2
        obtain ⟨z, z1, z2, z3⟩ := (G2 e he).cross' (by linarith) (by linarith)
        obtain ⟨-, y1, y2⟩ := (G2 e he).mid z z1
        exact ⟨_, y2, by rw [hB, y1, neg_zero], .inr (.inr ⟨_, (hmem _ _).2 ⟨e, he, z3⟩, rfl⟩)⟩
      · rintro _ ⟨e, he, rfl⟩ x1 x2
        simp only [hB] at x1 x2
        obtain ⟨z, z1, z2, z3⟩ := (G2 e he).cross (by linarith) (by linarith)
        obtain ⟨-, y1, y2⟩ := (G2 e he).mid z z1
        exact ⟨_, y2, by rw [hB, y1, neg_zero], .inr (.inr ⟨_, (hmem _ _).2 ⟨e, he, z3⟩, rfl⟩)⟩
      · rintro x (hx | ⟨y, hy, rfl⟩)
        · have := hms.edges x hx
          exact ⟨⟨this.1.1, (this.1.2 : (-A) x.1 = 0).ge⟩, ⟨this.2.1, (this.2.2 : (-A) x.2 = 0).ge⟩⟩
        · obtain ⟨e, he, hy⟩ := (hmem _ y).1 hy
          obtain ⟨-, ⟨k1, k2⟩, k3, k4⟩ := (G2 e he).neg y hy
          exact ⟨⟨hseg e he k3, by rw [hB]; linarith⟩, ⟨hseg e he k4, by rw [hB]; linarith⟩⟩

end

end Verif.Geometry
