import Verif.Proofs.HullBuilt
import Verif.Props.Geometry
import Mathlib.Analysis.Convex.Extreme

/-! # Convex hulls -/

namespace Verif.Geometry

open Verif.Rings

/-- The iteration in the order of insertion. -/
def exOracle : Oracle ℚ := ⟨fun p => p.foldl (fun a b => 10 * a + b) 100, fun _ L => L, fun _ L => L, fun _ L => L, fun _ L => L⟩

theorem exOracle_fair : exOracle.Fair := ⟨fun _ _ => .refl _, fun _ _ => .refl _, fun _ _ => .refl _, fun _ _ => .refl _⟩

/-- The iteration in the opposite order. -/
def exOracle2 : Oracle ℚ :=
  ⟨fun p => p.foldl (fun a b => 10 * a + b) 200, fun _ L => L.reverse, fun _ L => L.reverse, fun _ L => L.reverse, fun _ L => L.reverse⟩

theorem exOracle2_fair : exOracle2.Fair :=
  ⟨fun _ L => L.reverse_perm, fun _ L => L.reverse_perm, fun _ L => L.reverse_perm, fun _ L => L.reverse_perm⟩

/-- Two corners of the square, a point between them, the other corners and the center. -/
def exSquare : List (Vec ℚ) := [exPoint 0 0, exPoint 2 0, exPoint 1 0, exPoint 0 2, exPoint 2 2, exPoint 1 1]

theorem exSquare_mem : ∀ p ∈ exSquare, p.In exSpace := by
  intro p hp
  simp only [exSquare, List.mem_cons, List.not_mem_nil, or_false] at hp
  rcases hp with rfl | rfl | rfl | rfl | rfl | rfl <;> exact exPoint_in _ _

section
variable {α K : Type} [Field K] [LinearOrder K] [IsStrictOrderedRing K] {S : OrdOps α} {v : α → K} {D : Nat} {sp : Space}
variable {c e : Hull α} {X Y : Set (Fin D → K)}

/-! ## C126: no operation panics -/

/-- C126: `new` never panics, whatever the points and whatever the order of iteration over hash sets. -/
theorem C126_new (h : S.Models v) {o : Oracle α} (ho : o.Fair) (hd : sp.dim = D + 1) {pts : List (Vec α)} (hp : ∀ p ∈ pts, p.In sp) :
    ∃ c, S.hullNew o sp pts = some c ∧ c.ambient = sp ∧ Built S v D c (convexHull K (pointSet v D pts)) := by
  obtain ⟨c, h1, -, h3⟩ := h.hullNew (D := D) ho hd hp
  exact ⟨c, h1, h3, .new o ho sp hd pts hp h1⟩

/-- C126: `from_simplex` never panics on a simplex. -/
theorem C126_from_simplex (h : S.Models v) {o : Oracle α} (ho : o.Fair) (hd : sp.dim = D + 1) {s : Simplex α} (hs : s.Valid v D sp) :
    ∃ c, S.hullFromSimplex o s = some c ∧ c.ambient = sp ∧ Built S v D c (convexHull K (pointSet v D s.points)) := by
  obtain ⟨c, h1, -, h3⟩ := h.hullFromSimplex (D := D) o hd hs
  exact ⟨c, h1, h3, .simplex o ho sp hd s hs h1⟩

/-- C126: after any history `extend_by_point` never panics: the checks before and after the extension pass. -/
theorem C126_extend (h : S.Models v) (hc : Built S v D c X) {o : Oracle α} (ho : o.Fair) {pt : Vec α} (hp : pt.In c.ambient) :
    ∃ c', S.hullExtend o c pt = some c' ∧ c'.ambient = c.ambient ∧ Built S v D c' (convexHull K (insert (pt.val v D) X)) := by
  obtain ⟨P, h1, -⟩ := hc.hullOf h
  obtain ⟨c', e1, -, e3⟩ := h1.extend h ho hp
  exact ⟨c', e1, e3, .extend hc o ho pt hp e1⟩

/-- C126: after any history the intersection with a side of a hyperplane never panics. -/
theorem C126_half (h : S.Models v) (hc : Built S v D c X) {o : Oracle α} (ho : o.Fair) {hyp : OSimplex α} (hv : hyp.Valid S v D c.ambient) (side : Side) :
    ∃ c', S.hullHalf o c hyp side = some c' ∧ c'.ambient = c.ambient ∧ Built S v D c' (X ∩ hyp.closedRegion v D side) := by
  obtain ⟨P, h1, -⟩ := hc.hullOf h
  obtain ⟨c', P', e1, -, -, e3⟩ := h1.halfClosed h ho hv side
  exact ⟨c', e1, e3, .half hc o ho hyp hv side e1⟩

/-- C126: after any two histories in the same space the intersection never panics. -/
theorem C126_intersect (h : S.Models v) (hc : Built S v D c X) (he : Built S v D e Y) (ha : e.ambient = c.ambient) {o : Oracle α} (ho : o.Fair) :
    ∃ c', S.hullIntersect o c e = some c' ∧ c'.ambient = c.ambient ∧ Built S v D c' (X ∩ Y) := by
  obtain ⟨P, h1, -⟩ := hc.hullOf h
  obtain ⟨Q, h2, -⟩ := he.hullOf h
  obtain ⟨c', P', e1, -, -, e3⟩ := h1.intersect h2 ha h ho
  exact ⟨c', e1, e3, .intersect hc he ha o ho e1⟩

/-! ## C127: the interior simplices -/

/-- C127: after any history the interior simplices are simplices of the space with as many vertices as the affine dimension of the hull, no
two have the same vertices, together they cover exactly the set the history stands for, and any two of them meet exactly in the simplex of
their common vertices. -/
theorem C127_interior (h : S.Models v) (hc : Built S v D c X) :
    ∃ L, S.embeddedInterior c = some L ∧ (∀ s ∈ L, s.Valid v D c.ambient ∧ s.points.length = c.spanDim) ∧
      (L.map fun s => pointSet v D s.points).Nodup ∧
      (⋃ s ∈ L, convexHull K (pointSet v D s.points)) = X ∧
      ∀ s ∈ L, ∀ t ∈ L, convexHull K (pointSet v D s.points) ∩ convexHull K (pointSet v D t.points) =
        convexHull K (pointSet v D s.points ∩ pointSet v D t.points) := by
  obtain ⟨P, h1, rfl⟩ := hc.hullOf h
  exact h1.interior h

/-- C127: in particular the interior simplices of the hull of a list of points cover the convex hull of the points. -/
theorem C127_new (h : S.Models v) {o : Oracle α} (ho : o.Fair) (hd : sp.dim = D + 1) {pts : List (Vec α)} (hp : ∀ p ∈ pts, p.In sp) :
    ∃ c L, S.hullNew o sp pts = some c ∧ S.embeddedInterior c = some L ∧
      (⋃ s ∈ L, convexHull K (pointSet v D s.points)) = convexHull K (pointSet v D pts) := by
  obtain ⟨c, h1, -, h3⟩ := C126_new h ho hd hp
  obtain ⟨L, l1, -, -, l4, -⟩ := C127_interior h h3
  exact ⟨c, L, h1, l1, l4⟩

/-! ## C128: the facets -/

/-- C128: after any history the facets are simplices of the space with one vertex less than the affine dimension of the hull, no two have
the same vertices, and together they cover exactly the relative boundary of the set the history stands for. -/
theorem C128_facets (h : S.Models v) (hc : Built S v D c X) :
    ∃ L, S.embeddedFacets c = some L ∧ (∀ s ∈ L, s.Valid v D c.ambient ∧ s.points.length + 1 = c.spanDim) ∧
      (L.map fun s => pointSet v D s.points).Nodup ∧
      (⋃ s ∈ L, convexHull K (pointSet v D s.points)) = relBoundary K X := by
  obtain ⟨P, h1, rfl⟩ := hc.hullOf h
  exact h1.facets h

/-! ## C129: the dimension -/

/-- C129: the affine dimension of the hull is the number of points an independent set in it can have: one more than the dimension of the
directions of the set, and 0 for the empty set. -/
theorem C129_dimension (h : S.Models v) (hc : Built S v D c X) :
    (X = ∅ → c.spanDim = 0) ∧ (X ≠ ∅ → c.spanDim = Module.finrank K (vectorSpan K X) + 1) := by
  classical
  obtain ⟨P, h1, rfl⟩ := hc.hullOf h
  have h2 := h1.dim
  have h3 : vectorSpan K (convexHull K P) = vectorSpan K P := by
    rw [← direction_affineSpan, affineSpan_convexHull, direction_affineSpan]
  have h4 : convexHull K P = ∅ ↔ P = ∅ := convexHull_eq_empty
  rw [h3, Ne, h4, Hull.spanDim, h2]
  exact ⟨fun hh => if_pos hh, fun hh => if_neg hh⟩

/-- C129: `is_empty` tells whether the set is empty. -/
theorem C129_is_empty (h : S.Models v) (hc : Built S v D c X) : c.isEmpty = true ↔ X = ∅ := by
  obtain ⟨P, h1, rfl⟩ := hc.hullOf h
  rw [Hull.isEmpty, beq_iff_eq, h1.isNull, convexHull_eq_empty]

/-! ## C130: the defining points -/

/-- C130: after any history the defining points are distinct points of the set whose convex hull is the set; every extreme point of the set
is one of them. -/
theorem C130_defining (h : S.Models v) (hc : Built S v D c X) {o : Oracle α} (ho : o.Fair) :
    ∃ ps, S.definingPoints o c = some ps ∧ (∀ p ∈ ps, p.In c.ambient) ∧ (ps.map (Vec.val v D)).Nodup ∧
      convexHull K (pointSet v D ps) = X ∧ Set.extremePoints K X ⊆ pointSet v D ps := by
  obtain ⟨P, h1, rfl⟩ := hc.hullOf h
  obtain ⟨ps, p1, p2, p3, -, p5⟩ := h1.definingPoints h ho
  refine ⟨ps, p1, p2, p3, p5, ?_⟩
  rw [← p5]
  exact extremePoints_convexHull_subset

/-- C130: the defining points of the hull of a list of points are among those points. -/
theorem C130_new (h : S.Models v) {o o' : Oracle α} (ho : o.Fair) (ho' : o'.Fair) (hd : sp.dim = D + 1) {pts : List (Vec α)} (hp : ∀ p ∈ pts, p.In sp) :
    ∃ c ps, S.hullNew o sp pts = some c ∧ S.definingPoints o' c = some ps ∧ pointSet v D ps ⊆ pointSet v D pts ∧
      convexHull K (pointSet v D ps) = convexHull K (pointSet v D pts) := by
  obtain ⟨c, h1, h2, -⟩ := h.hullNew (D := D) ho hd hp
  obtain ⟨ps, p1, -, -, p4, p5⟩ := h2.definingPoints h ho'
  exact ⟨c, ps, h1, p1, p4, p5⟩

/-! ## C131: intersections -/

/-- C131: the intersection of a hull with a side of a hyperplane covers exactly the points of the hull in the closed region on that side, for
the neutral side the points on the hyperplane. -/
theorem C131_half (h : S.Models v) (hc : Built S v D c X) {o : Oracle α} (ho : o.Fair) {hyp : OSimplex α} (hv : hyp.Valid S v D c.ambient) (side : Side) :
    ∃ c' L, S.hullHalf o c hyp side = some c' ∧ S.embeddedInterior c' = some L ∧
      (⋃ s ∈ L, convexHull K (pointSet v D s.points)) = X ∩ hyp.closedRegion v D side := by
  obtain ⟨c', h1, -, h3⟩ := C126_half h hc ho hv side
  obtain ⟨L, l1, -, -, l4, -⟩ := C127_interior h h3
  exact ⟨c', L, h1, l1, l4⟩

/-- C131: the intersection of two hulls covers exactly the common points. -/
theorem C131_intersect (h : S.Models v) (hc : Built S v D c X) (he : Built S v D e Y) (ha : e.ambient = c.ambient) {o : Oracle α} (ho : o.Fair) :
    ∃ c' L, S.hullIntersect o c e = some c' ∧ S.embeddedInterior c' = some L ∧
      (⋃ s ∈ L, convexHull K (pointSet v D s.points)) = X ∩ Y := by
  obtain ⟨c', h1, -, h3⟩ := C126_intersect h hc he ha ho
  obtain ⟨L, l1, -, -, l4, -⟩ := C127_interior h h3
  exact ⟨c', L, h1, l1, l4⟩

/-- C131: hulls of different spaces are not intersected. -/
theorem C131_spaces (h : S.Models v) {D' : Nat} {Y : Set (Fin D' → K)} (hc : Built S v D c X) (he : Built S v D' e Y) (ha : e.ambient ≠ c.ambient)
    (o : Oracle α) : S.hullIntersect o c e = none := by
  obtain ⟨P, h1, -⟩ := hc.hullOf h
  obtain ⟨Q, h2, -⟩ := he.hullOf h
  unfold OrdOps.hullIntersect
  rw [h1.subAmb, h2.subAmb]
  simp [assertThat, Ne.symm ha]

/-! ## C132: the wireframe -/

/-- C132: after any history the wireframe of the hull can be computed, its points and the ends of its edges are points of the set, and the
hull made of the wireframe again stands for the same set. -/
theorem C132_wireframe (h : S.Models v) (hc : Built S v D c X) {o o' : Oracle α} (ho : o.Fair) (ho' : o'.Fair) :
    ∃ w c', S.wireframe o c = some w ∧ w.ambient = c.ambient ∧ (∀ p ∈ w.points, p.In c.ambient ∧ p.val v D ∈ X) ∧
      (∀ e ∈ w.edges, e.1.In c.ambient ∧ e.2.In c.ambient ∧ segment K (e.1.val v D) (e.2.val v D) ⊆ X) ∧
      S.wireHull o' w = some c' ∧ Built S v D c' X := by
  obtain ⟨P, h1, rfl⟩ := hc.hullOf h
  obtain ⟨w, w1, w2, w3⟩ := h1.wireframe h ho
  obtain ⟨c', t1, t2, t3⟩ := h.hullNew ho' w2.dim w2.points
  have hb := Built.new (v := v) (K := K) o' ho' w.ambient w2.dim w.points w2.points t1
  rw [w2.sec.hull] at hb
  have hsub : pointSet v D w.points ⊆ convexHull K P := by
    rw [← w2.sec.hull]; exact subset_convexHull K _
  refine ⟨w, c', w1, w3, fun p hp => ⟨w3 ▸ w2.points p hp, hsub ⟨p, hp, rfl⟩⟩, fun e he => ⟨w3 ▸ (w2.edges e he).1, w3 ▸ (w2.edges e he).2, ?_⟩, t1, hb⟩
  have := w2.sec.edges _ ⟨e, he, rfl⟩
  exact w2.sec.convex.segment_subset this.1 this.2

/-- C132: the section of the set with any hyperplane is the convex hull of the points of the hyperplane that are points of the wireframe or
on one of its edges. -/
theorem C132_section (h : S.Models v) (hc : Built S v D c X) {o : Oracle α} (ho : o.Fair) (A : (Fin D → K) →ᵃ[K] K) :
    ∃ w, S.wireframe o c = some w ∧ {x ∈ X | A x = 0} = convexHull K {x | A x = 0 ∧
      ((∃ p ∈ w.points, p.val v D = x) ∨ ∃ e ∈ w.edges, x ∈ segment K (e.1.val v D) (e.2.val v D))} := by
  obtain ⟨P, h1, rfl⟩ := hc.hullOf h
  obtain ⟨w, w1, w2, w3⟩ := h1.wireframe h ho
  refine ⟨w, w1, Set.Subset.antisymm ?_ ?_⟩
  · rintro x ⟨hx, h0⟩
    refine convexHull_mono ?_ (w2.sec.cut A x hx h0)
    rintro y ⟨y0, ⟨p, hp, rfl⟩ | ⟨_, ⟨e, he, rfl⟩, -, hy⟩⟩
    · exact ⟨y0, .inl ⟨p, hp, rfl⟩⟩
    · exact ⟨y0, .inr ⟨e, he, hy⟩⟩
  · have hcv : Convex K {x ∈ convexHull K P | A x = 0} := by
      intro x hx y hy a b ha hb hab
      refine ⟨convex_convexHull K P hx.1 hy.1 ha hb hab, ?_⟩
      rw [Convex.combo_affine_apply hab, hx.2, hy.2]
      simp
    refine convexHull_min ?_ hcv
    rintro y ⟨y0, ⟨p, hp, rfl⟩ | ⟨e, he, hy⟩⟩
    · exact ⟨w2.sec.sub ⟨p, hp, rfl⟩, y0⟩
    · have := w2.sec.edges _ ⟨e, he, rfl⟩
      exact ⟨w2.sec.convex.segment_subset this.1 this.2 hy, y0⟩

end

/-! ## Examples -/

/-- The hulls of the examples are built. -/
theorem exHull : ∃ c, ratOrd.hullNew exOracle exSpace exSquare = some c ∧ c.ambient = exSpace ∧
    Built ratOrd (id : ℚ → ℚ) 2 c (convexHull ℚ (pointSet id 2 exSquare)) := C126_new ratOrd_models exOracle_fair rfl exSquare_mem

theorem exHull2 : ∃ c, ratOrd.hullNew exOracle2 exSpace exTriangle = some c ∧ c.ambient = exSpace ∧
    Built ratOrd (id : ℚ → ℚ) 2 c (convexHull ℚ (pointSet id 2 exTriangle)) := C126_new ratOrd_models exOracle2_fair rfl exTriangle_mem

example : ∃ s c, ratOrd.simplexNew exSpace exTriangle = some (.ok s) ∧ ratOrd.hullFromSimplex exOracle s = some c := by
  obtain ⟨s, h1, h2, -⟩ := exTriangle_simplex
  obtain ⟨c, h3, -⟩ := C126_from_simplex ratOrd_models exOracle_fair (D := 2) rfl h2
  exact ⟨s, c, h1, h3⟩

example : ∃ c c' X, ratOrd.hullExtend exOracle2 c (exPoint 3 1) = some c' ∧ Built ratOrd (id : ℚ → ℚ) 2 c' X := by
  obtain ⟨c, h1, h2, h3⟩ := exHull
  obtain ⟨c', e1, -, e3⟩ := C126_extend ratOrd_models h3 exOracle2_fair (pt := exPoint 3 1) (h2 ▸ exPoint_in 3 1)
  exact ⟨c, c', _, e1, e3⟩

example : ∃ c c' o L, ratOrd.hullHalf exOracle c o .negative = some c' ∧ ratOrd.embeddedInterior c' = some L := by
  obtain ⟨c, h1, h2, h3⟩ := exHull
  obtain ⟨o, f, -, o2, -⟩ := exLine
  obtain ⟨c', L, e1, e2, -⟩ := C131_half ratOrd_models h3 exOracle_fair (hyp := o) (h2 ▸ o2) .negative
  exact ⟨c, c', o, L, e1, e2⟩

example : ∃ c e c' L, ratOrd.hullIntersect exOracle c e = some c' ∧ ratOrd.embeddedInterior c' = some L ∧ c.ambient = exSpace := by
  obtain ⟨c, h1, h2, h3⟩ := exHull
  obtain ⟨e, g1, g2, g3⟩ := exHull2
  obtain ⟨c', L, e1, e2, -⟩ := C131_intersect ratOrd_models h3 g3 (g2.trans h2.symm) exOracle_fair
  exact ⟨c, e, c', L, e1, e2, h2⟩

example : ∃ c L F, ratOrd.hullNew exOracle exSpace exSquare = some c ∧ ratOrd.embeddedInterior c = some L ∧ ratOrd.embeddedFacets c = some F ∧
    c.isEmpty = false := by
  obtain ⟨c, h1, h2, h3⟩ := exHull
  obtain ⟨L, l1, -⟩ := C127_interior ratOrd_models h3
  obtain ⟨F, f1, -⟩ := C128_facets ratOrd_models h3
  refine ⟨c, L, F, h1, l1, f1, ?_⟩
  have h4 := C129_is_empty ratOrd_models h3
  have h5 : convexHull ℚ (pointSet (id : ℚ → ℚ) 2 exSquare) ≠ ∅ := by
    rw [Ne, convexHull_eq_empty]
    exact Set.Nonempty.ne_empty ⟨(exPoint 0 0).val id 2, exPoint 0 0, by simp [exSquare], rfl⟩
  rw [← Bool.not_eq_true, h4]
  exact h5

example : ∃ c ps, ratOrd.hullNew exOracle exSpace exSquare = some c ∧ ratOrd.definingPoints exOracle2 c = some ps ∧
    pointSet (id : ℚ → ℚ) 2 ps ⊆ pointSet id 2 exSquare := by
  obtain ⟨c, ps, h1, h2, h3, -⟩ := C130_new ratOrd_models (v := id) (K := ℚ) exOracle_fair exOracle2_fair (D := 2) rfl exSquare_mem
  exact ⟨c, ps, h1, h2, h3⟩

example : ∃ c w c', ratOrd.wireframe exOracle c = some w ∧ ratOrd.wireHull exOracle2 w = some c' ∧ c.ambient = exSpace := by
  obtain ⟨c, h1, h2, h3⟩ := exHull
  obtain ⟨w, c', w1, -, -, -, w2, -⟩ := C132_wireframe ratOrd_models h3 exOracle_fair exOracle2_fair
  exact ⟨c, w, c', w1, w2, h2⟩

end Verif.Geometry
