import Verif.Proofs.ComplexSpec
import Verif.Props.ConvexHull

/-! # Simplicial complexes and Boolean operations -/

namespace Verif.Geometry

open Verif.Rings

section
variable {α K T U : Type} [Field K] [LinearOrder K] [IsStrictOrderedRing K] {S : OrdOps α} {v : α → K} {D : Nat} {sp : Space}

/-! ## C133: the constructor of simplicial complexes -/

/-- C133: `new_labelled` refuses a null simplex with one error, refuses a collection that does not contain the faces of its simplices with
the other, and accepts everything else unchanged; every simplex of the complex records exactly the simplices it is a proper face of. -/
theorem C133_new_labelled (h : S.Models v) (hd : sp.dim = D + 1) {m : List (Simplex α × T)} (hv : ∀ e ∈ m, e.1.Valid v D sp)
    (hn : (m.map fun e => pointSet v D e.1.points).Nodup) :
    ∃ r, S.newLabelled sp m = some r ∧
      (r = .error .null ↔ ∃ e ∈ m, e.1.points = []) ∧
      (r = .error .notClosed ↔ (∀ e ∈ m, e.1.points ≠ []) ∧ ¬ (⟨sp, m⟩ : Coll α T).HasFaces v D) ∧
      ∀ c, r = .ok c → c.ambient = sp ∧ c.labelled = m ∧ c.Records v D ∧ c.toPartial.Valid v D sp ∧ c.toPartial.HasFaces v D := by
  have hnew := h.newLabelled hd hv (nodup_pointSet.1 hn)
  have hcl : ClosedUnder v D (m.map Prod.fst) ↔ (⟨sp, m⟩ : Coll α T).HasFaces v D := closedUnder_iff (c := ⟨sp, m⟩)
  by_cases h0 : ∃ e ∈ m, e.1.points = []
  · rw [if_pos h0] at hnew
    refine ⟨_, hnew, by simpa using h0, ⟨fun hh => by simp at hh, fun hh => ?_⟩, fun c hc => by simp at hc⟩
    obtain ⟨e, he, h1⟩ := h0
    exact absurd h1 (hh.1 e he)
  · rw [if_neg h0] at hnew
    have h0' : ∀ e ∈ m, e.1.points ≠ [] := fun e he h1 => h0 ⟨e, he, h1⟩
    by_cases hc : ClosedUnder v D (m.map Prod.fst)
    · rw [if_pos hc] at hnew
      obtain ⟨c, c1, c2, c3, c4⟩ := hnew
      refine ⟨_, c1, ⟨fun hh => by simp at hh, fun hh => absurd hh h0⟩, ⟨fun hh => by simp at hh, fun hh => absurd (hcl.1 hc) hh.2⟩, ?_⟩
      rintro _ ⟨⟩
      have hp : c.toPartial = ⟨sp, m⟩ := by unfold Cplx.toPartial; rw [c2, c3]
      refine ⟨c2, c3, ?_, ?_, ?_⟩
      · apply Cplx.records
        intro e he
        obtain ⟨-, x2, x3⟩ := c4 e he
        refine ⟨x2, fun A => ?_⟩
        rw [x3, c3, List.mem_map]
      · rw [hp]; exact ⟨rfl, hv, h0', hn⟩
      · rw [hp]; exact hcl.1 hc
    · rw [if_neg hc] at hnew
      refine ⟨_, hnew, ⟨fun hh => by simp at hh, fun hh => absurd hh h0⟩, ⟨fun _ => ⟨h0', fun hh => hc (hcl.2 hh)⟩, fun _ => rfl⟩, fun c hc => by simp at hc⟩

/-- C133: a collection without null simplices that contains the faces of its simplices is accepted. -/
theorem C133_accepts (h : S.Models v) (hd : sp.dim = D + 1) {c : Coll α T} (hc : c.Valid v D sp) (hf : c.HasFaces v D) :
    ∃ k, S.tryComplex c = some (.ok k) ∧ k.toPartial = c ∧ k.Records v D := by
  obtain ⟨amb, m⟩ := c
  obtain rfl : amb = sp := hc.ambient
  obtain ⟨r, r1, r2, r3, r4⟩ := C133_new_labelled h hd hc.valid hc.nodup
  match r, r1, r2, r3, r4 with
  | .error .null, _, r2, _, _ =>
    obtain ⟨e, he, h1⟩ := r2.1 rfl
    exact absurd h1 (hc.notNull e he)
  | .error .notClosed, _, _, r3, _ => exact absurd hf (r3.1 rfl).2
  | .ok k, r1, _, _, r4 =>
    obtain ⟨e1, e2, e3, -⟩ := r4 k rfl
    exact ⟨k, r1, by unfold Cplx.toPartial; rw [e1, e2], e3⟩

/-! ## C134: the complex of a convex hull -/

/-- C134: after any history of a convex hull `as_simplicial_complex` does not panic. The result is a simplicial complex (it contains the
faces of its simplices, and closed simplices meet in common faces) whose region is the set the history stands for; the simplices labelled
`Boundary` make up exactly the relative boundary of this set and those labelled `Interior` exactly its relative interior. -/
theorem C134_as_complex (h : S.Models v) {c : Hull α} {X : Set (Fin D → K)} (hc : Built S v D c X) {o : Oracle α} (ho : o.Fair) :
    ∃ k, S.asComplex o c = some k ∧ k.toPartial.Valid v D c.ambient ∧ k.toPartial.HasFaces v D ∧ k.toPartial.IsPartial v D ∧ k.Records v D ∧
      k.toPartial.total v D = X ∧ k.toPartial.region v D .boundary = relBoundary K X ∧ k.toPartial.region v D .interior = relInterior K X := by
  obtain ⟨P, h1, rfl⟩ := hc.hullOf h
  obtain ⟨k, k1, k2⟩ := h1.asComplex h ho
  have hvalid : k.toPartial.Valid v D c.ambient := ⟨k2.ambient, fun e he => (k2.valid e he).1, fun e he => (k2.valid e he).2, nodup_pointSet.2 k2.nodup⟩
  have hX : ∀ e ∈ k.labelled, ∀ x ∈ openSimplex K (e.1.verts v D), x ∈ convexHull K P := fun e he x hx => k2.sub e he (openSimplex_sub hx)
  refine ⟨k, k1, hvalid, ?_, ?_, ?_, ?_, ?_, ?_⟩
  · rw [← closedUnder_iff]
    intro s hs A hA hn
    obtain ⟨e, he, rfl⟩ := List.mem_map.1 hs
    obtain ⟨-, L, hL, u, hu, h2⟩ := (k2.faces (e.1.verts v D)).1 (List.mem_map_of_mem (f := fun e : Simplex α × IBLabel => e.1.verts v D) he)
    obtain ⟨f, hf, h3⟩ := List.mem_map.1 ((k2.faces A).2 ⟨hn, L, hL, u, hu, hA.trans h2⟩)
    exact List.mem_map.2 ⟨f.1, List.mem_map_of_mem hf, h3⟩
  · rw [Coll.isPartial_iff]
    intro s hs t ht
    obtain ⟨e, he, rfl⟩ := List.mem_map.1 hs
    obtain ⟨f, hf, rfl⟩ := List.mem_map.1 ht
    exact k2.meet e he f hf
  · apply Cplx.records
    intro e he
    obtain ⟨-, x2, x3⟩ := k2.inv e he
    refine ⟨x2, fun A => ?_⟩
    rw [x3, k2.faces]
    exact and_congr_right fun hA => ⟨fun hf => ⟨Finset.nonempty_iff_ne_empty.2 fun h0 => by subst h0; exact hA.2 (Finset.empty_subset _), hf⟩, fun hf => hf.2⟩
  · rw [Coll.total_eq hvalid.valid]
    ext x
    constructor
    · rintro ⟨s, hs, hx⟩
      obtain ⟨e, he, rfl⟩ := List.mem_map.1 hs
      exact hX e he x hx
    · intro hx
      obtain ⟨e, he, h2⟩ := k2.cover x hx
      exact ⟨e.1, List.mem_map_of_mem he, h2⟩
  · rw [Coll.region_eq hvalid.valid]
    ext x
    constructor
    · rintro ⟨e, he, hl, hx⟩
      exact k2.boundary e he hl hx
    · intro hx
      obtain ⟨e, he, h2⟩ := k2.cover x hx.1
      refine ⟨e, he, ?_, h2⟩
      cases hl : e.2 with
      | boundary => rfl
      | interior => exact absurd (k2.interior e he hl h2) hx.2
  · rw [Coll.region_eq hvalid.valid]
    ext x
    constructor
    · rintro ⟨e, he, hl, hx⟩
      exact k2.interior e he hl hx
    · intro hx
      obtain ⟨e, he, h2⟩ := k2.cover x hx.1
      refine ⟨e, he, ?_, h2⟩
      cases hl : e.2 with
      | interior => rfl
      | boundary => exact absurd hx (k2.boundary e he hl h2).2

/-! ## C135: the Venn decomposition -/

/-- C135: `venn` of two simplices of the same space does not panic. The pieces form a partial simplicial complex; those labelled `Left` make
up the points of the first open simplex that are not in the second, those labelled `Middle` the points of both, and those labelled
`Right` the points of the second that are not in the first. -/
theorem C135_venn (h : S.Models v) (hd : sp.dim = D + 1) {o : Oracle α} (ho : o.Fair) {s t : Simplex α} (hs : s.Valid v D sp) (ht : t.Valid v D sp) :
    ∃ c, S.venn o s t = some c ∧ c.Valid v D sp ∧ c.IsDisjoint v D ∧ c.IsPartial v D ∧
      c.region v D .left = s.openRegion v D \ t.openRegion v D ∧
      c.region v D .middle = s.openRegion v D ∩ t.openRegion v D ∧
      c.region v D .right = t.openRegion v D \ s.openRegion v D := by
  obtain ⟨c, c1, c2⟩ := h.venn hd ho hs ht
  obtain ⟨hv, hdis⟩ := (Coll.cells_iff c2.ambient).1 c2.cells
  refine ⟨c, c1, hv, hdis, Coll.isPartial_iff.2 c2.meet, ?_, ?_, ?_⟩
  · rw [← Coll.subset_region hv.valid, c2.left, hs.openRegion, ht.openRegion]
  · rw [← Coll.subset_region hv.valid, c2.middle, hs.openRegion, ht.openRegion]
  · rw [← Coll.subset_region hv.valid, c2.right, hs.openRegion, ht.openRegion]

/-! ## C136: Boolean operations on disjoint unions -/

/-- C136: `subtract_raw` does not panic, and the result is a disjoint union where every label has the region it had before without the region
of the other argument. -/
theorem C136_subtract (h : S.Models v) (hd : sp.dim = D + 1) {o : Oracle α} (ho : o.Fair) {a : Coll α T} {b : Coll α U}
    (ha : a.Valid v D sp) (had : a.IsDisjoint v D) (hb : b.Valid v D sp) :
    ∃ r, S.subtractRaw o a b = some r ∧ r.Valid v D sp ∧ r.IsDisjoint v D ∧ ∀ label, r.region v D label = a.region v D label \ b.total v D := by
  obtain ⟨r, r1, r2, r3, r4⟩ := h.subtractRaw hd ho ha.ambient hb.ambient ((Coll.cells_iff ha.ambient).2 ⟨ha, had⟩) (fun t ht => by
    obtain ⟨e, he, rfl⟩ := List.mem_map.1 ht
    exact hb.valid e he)
  obtain ⟨hv, hdis⟩ := (Coll.cells_iff r2).1 r3
  refine ⟨r, r1, hv, hdis, fun label => ?_⟩
  rw [Coll.region_eq hv.valid, r4, Coll.region_eq ha.valid, Coll.total_eq hb.valid]

/-- C136: `intersection_raw` does not panic, and the result is a disjoint union where the region of a pair of labels is the intersection of the
regions of the two labels. -/
theorem C136_intersection (h : S.Models v) (hd : sp.dim = D + 1) {o : Oracle α} (ho : o.Fair) {a : Coll α T} {b : Coll α U}
    (ha : a.Valid v D sp) (had : a.IsDisjoint v D) (hb : b.Valid v D sp) (hbd : b.IsDisjoint v D) :
    ∃ r, S.intersectionRaw o a b = some r ∧ r.Valid v D sp ∧ r.IsDisjoint v D ∧
      ∀ l m, r.region v D (l, m) = a.region v D l ∩ b.region v D m := by
  obtain ⟨r, r1, r2, r3, r4⟩ := h.intersectionRaw hd ho ha.ambient hb.ambient ((Coll.cells_iff ha.ambient).2 ⟨ha, had⟩) ((Coll.cells_iff hb.ambient).2 ⟨hb, hbd⟩)
  obtain ⟨hv, hdis⟩ := (Coll.cells_iff r2).1 r3
  refine ⟨r, r1, hv, hdis, fun l m => ?_⟩
  rw [Coll.region_eq hv.valid, r4, Coll.region_eq ha.valid, Coll.region_eq hb.valid]

/-- C136: `union_raw` of disjoint unions does not panic, and the result is a disjoint union whose region is the union of the two regions. -/
theorem C136_union (h : S.Models v) (hd : sp.dim = D + 1) {o : Oracle α} (ho : o.Fair) {a b : Coll α Unit}
    (ha : a.Valid v D sp) (had : a.IsDisjoint v D) (hb : b.Valid v D sp) (hbd : b.IsDisjoint v D) :
    ∃ r, S.unionRaw o a b = some r ∧ r.Valid v D sp ∧ r.IsDisjoint v D ∧ r.total v D = a.total v D ∪ b.total v D := by
  obtain ⟨r, r1, r2, r3, r4⟩ := h.unionRaw hd ho ha.ambient hb.ambient ((Coll.cells_iff ha.ambient).2 ⟨ha, had⟩) ((Coll.cells_iff hb.ambient).2 ⟨hb, hbd⟩)
  obtain ⟨hv, hdis⟩ := (Coll.cells_iff r2).1 r3
  refine ⟨r, r1, hv, hdis, ?_⟩
  rw [Coll.total_eq hv.valid, r4, Coll.total_eq ha.valid, Coll.total_eq hb.valid]

/-! ## C137: the closure of a partial complex -/

/-- C137: `closure` does not panic. The result contains exactly the faces of the simplices of the partial complex, a simplex that was there
keeps its label and the others have none; when the argument is a partial simplicial complex the result is a simplicial complex. -/
theorem C137_closure (h : S.Models v) (hd : sp.dim = D + 1) {o : Oracle α} (ho : o.Fair) {c : Coll α T} (hc : c.Valid v D sp) :
    ∃ k, S.closure o c = some k ∧ k.toPartial.Valid v D sp ∧ k.toPartial.HasFaces v D ∧
      (∀ A : Set (Fin D → K), (∃ e ∈ k.labelled, pointSet v D e.1.points = A) ↔ A.Nonempty ∧ ∃ f ∈ c.simplexes, A ⊆ pointSet v D f.1.points) ∧
      (∀ e ∈ k.labelled, ∀ y, e.2 = some y ↔ ∃ f ∈ c.simplexes, pointSet v D f.1.points = pointSet v D e.1.points ∧ f.2 = y) ∧
      (c.IsPartial v D → k.toPartial.IsPartial v D) := by
  have hmap : c.spxs.map (Simplex.verts v D) = c.simplexes.map fun e => e.1.verts v D := by unfold Coll.spxs; rw [List.map_map]; rfl
  obtain ⟨k, k1, k2, k3, k4, k5, k6, k7⟩ := h.closure hd ho hc.ambient (fun s hs => by
      obtain ⟨e, he, rfl⟩ := List.mem_map.1 hs
      exact hc.valid e he) (by rw [hmap]; exact nodup_pointSet.1 hc.nodup) (fun s hs => by
      obtain ⟨e, he, rfl⟩ := List.mem_map.1 hs
      exact hc.notNull e he)
  refine ⟨k, k1, ⟨k2, fun e he => (k3 e he).1, fun e he => (k3 e he).2, nodup_pointSet.2 k4⟩, ?_, ?_, ?_, ?_⟩
  · rw [← closedUnder_iff]
    intro s hs A hA hn
    obtain ⟨e, he, rfl⟩ := List.mem_map.1 hs
    obtain ⟨-, u, hu, h2⟩ := (k5 (e.1.verts v D)).1 (List.mem_map_of_mem (f := fun e : Simplex α × Option T => e.1.verts v D) he)
    obtain ⟨f, hf, h3⟩ := List.mem_map.1 ((k5 A).2 ⟨hn, u, hu, hA.trans h2⟩)
    exact List.mem_map.2 ⟨f.1, List.mem_map_of_mem hf, h3⟩
  · intro A
    constructor
    · rintro ⟨e, he, rfl⟩
      obtain ⟨h1, u, hu, h2⟩ := (k5 (e.1.verts v D)).1 (List.mem_map_of_mem (f := fun e : Simplex α × Option T => e.1.verts v D) he)
      obtain ⟨f, hf, rfl⟩ := List.mem_map.1 hu
      rw [pointSet_verts]
      exact ⟨by exact_mod_cast h1, f, hf, by rw [pointSet_verts]; exact_mod_cast h2⟩
    · rintro ⟨h1, f, hf, h2⟩
      obtain ⟨B, rfl, hB⟩ := finite_pointSet _ h2
      rw [exists_pointSet (f := fun e : Simplex α × Option T => e.1), k5]
      exact ⟨by exact_mod_cast h1, f.1, List.mem_map_of_mem hf, hB⟩
  · intro e he y
    rw [k6 e he]
    constructor
    · rintro ⟨f, hf, h1, h2⟩
      exact ⟨f, hf, by rw [pointSet_verts, pointSet_verts, h1], h2⟩
    · rintro ⟨f, hf, h1, h2⟩
      rw [pointSet_verts, pointSet_verts] at h1
      exact ⟨f, hf, Finset.coe_injective h1, h2⟩
  · intro hp
    rw [Coll.isPartial_iff] at hp ⊢
    exact k7 hp

end

/-! ## Examples -/

/-- A segment that crosses the triangle. -/
def exSegment : List (Vec ℚ) := [exPoint 1 1, exPoint 1 (-1)]

theorem exSegment_mem : ∀ p ∈ exSegment, p.In exSpace := by
  intro p hp
  simp only [exSegment, List.mem_cons, List.not_mem_nil, or_false] at hp
  rcases hp with rfl | rfl <;> exact exPoint_in _ _

theorem exSegment_simplex : ∃ s, ratOrd.simplexNew exSpace exSegment = some (.ok s) ∧ s.Valid (id : ℚ → ℚ) 2 exSpace ∧ s.points.Perm exSegment := by
  have h := C119_new ratOrd_models (d := 2) rfl exSegment_mem
  by_cases hi : AffineIndependent ℚ (pointsOf (id : ℚ → ℚ) 2 exSegment)
  · exact h.1 hi
  · have h1 := h.2 hi
    have h2 : ((ratOrd.simplexNew exSpace exSegment).bind fun r => r.toOption.map fun s => s.points.length) = some 2 := by decide +kernel
    rw [h1] at h2
    simp [Except.toOption] at h2

/-- The triangle (without its boundary) and the segment as collections with labels. -/
theorem exColls : ∃ a b : Coll ℚ Nat, a.Valid (id : ℚ → ℚ) 2 exSpace ∧ b.Valid (id : ℚ → ℚ) 2 exSpace ∧ a.IsDisjoint (id : ℚ → ℚ) 2 ∧
    b.IsDisjoint (id : ℚ → ℚ) 2 ∧ a.total (id : ℚ → ℚ) 2 ≠ ∅ ∧ b.total (id : ℚ → ℚ) 2 ≠ ∅ := by
  obtain ⟨s, -, h2, h3⟩ := exTriangle_simplex
  obtain ⟨t, -, g2, g3⟩ := exSegment_simplex
  have key : ∀ u : Simplex ℚ, u.Valid (id : ℚ → ℚ) 2 exSpace → u.points ≠ [] → (⟨exSpace, [(u, 7)]⟩ : Coll ℚ Nat).Valid (id : ℚ → ℚ) 2 exSpace ∧
      (⟨exSpace, [(u, 7)]⟩ : Coll ℚ Nat).IsDisjoint (id : ℚ → ℚ) 2 ∧ (⟨exSpace, [(u, 7)]⟩ : Coll ℚ Nat).total (id : ℚ → ℚ) 2 ≠ ∅ := by
    intro u hu hn
    refine ⟨⟨rfl, by simpa using hu, by simpa using hn, by simp⟩, by simp [Coll.IsDisjoint], ?_⟩
    obtain ⟨x, hx⟩ := openSimplex_nonempty (K := ℚ) (Simplex.verts_nonempty (v := (id : ℚ → ℚ)) (D := 2) hn)
    exact Set.Nonempty.ne_empty ⟨x, (u, 7), by simp, hu.openRegion.symm ▸ hx⟩
  obtain ⟨a1, a2, a3⟩ := key s h2 (fun h0 => by have := h3.length_eq; rw [h0] at this; simp [exTriangle] at this)
  obtain ⟨b1, b2, b3⟩ := key t g2 (fun h0 => by have := g3.length_eq; rw [h0] at this; simp [exSegment] at this)
  exact ⟨_, _, a1, b1, a2, b2, a3, b3⟩

-- a triangle alone is refused, its closure is accepted
example : ∃ (a : Coll ℚ Nat) (k : Cplx ℚ (Option Nat)) (k' : Cplx ℚ (Option Nat)), a.total (id : ℚ → ℚ) 2 ≠ ∅ ∧ ratOrd.closure exOracle a = some k ∧
    ratOrd.tryComplex k.toPartial = some (.ok k') ∧ k'.toPartial = k.toPartial := by
  obtain ⟨a, b, h1, -, -, -, h2, -⟩ := exColls
  obtain ⟨k, k1, k2, k3, -⟩ := C137_closure ratOrd_models (D := 2) rfl exOracle_fair h1
  obtain ⟨k', k4, k5, -⟩ := C133_accepts ratOrd_models (D := 2) rfl k2 k3
  exact ⟨a, k, k', h2, k1, k4, k5⟩

example : ∃ s, s.Valid (id : ℚ → ℚ) 2 exSpace ∧ s.points.length = 3 ∧ ratOrd.newLabelled exSpace [(s, ())] = some (.error .notClosed) := by
  obtain ⟨s, -, h2, h3⟩ := exTriangle_simplex
  have hl : s.points.length = 3 := h3.length_eq
  obtain ⟨r, r1, -, r3, -⟩ := C133_new_labelled ratOrd_models (D := 2) rfl (m := [(s, ())]) (by simpa using h2) (by simp)
  refine ⟨s, h2, hl, ?_⟩
  rw [r1, r3.2]
  refine ⟨by simp only [List.mem_singleton, forall_eq]; exact fun h0 => by rw [h0] at hl; simp at hl, fun hf => ?_⟩
  obtain ⟨p, hp⟩ : ∃ p, p ∈ s.points := List.exists_mem_of_length_pos (by omega)
  obtain ⟨f, hf1, hf2⟩ := hf (s, ()) (by simp) {p.val id 2} (by rintro x rfl; exact ⟨p, hp, rfl⟩) (Set.singleton_nonempty _)
  simp only [List.mem_singleton] at hf1
  subst hf1
  have hc := h2.points.verts_card
  have : ((vertsOf (id : ℚ → ℚ) 2 s.points : Finset (Fin 2 → ℚ)) : Set (Fin 2 → ℚ)) = {p.val id 2} := by rw [coe_vertsOf]; exact hf2
  rw [← Set.ncard_coe_finset, this, Set.ncard_singleton, hl] at hc
  omega

-- the complex of the square
example : ∃ c k, ratOrd.hullNew exOracle exSpace exSquare = some c ∧ ratOrd.asComplex exOracle2 c = some k ∧
    k.toPartial.total (id : ℚ → ℚ) 2 = convexHull ℚ (pointSet (id : ℚ → ℚ) 2 exSquare) := by
  obtain ⟨c, h1, -, h3⟩ := C126_new ratOrd_models exOracle_fair (D := 2) rfl exSquare_mem
  obtain ⟨k, k1, -, -, -, -, k2, -⟩ := C134_as_complex ratOrd_models h3 exOracle2_fair
  exact ⟨c, k, h1, k1, k2⟩

-- the triangle and the segment that crosses it
example : ∃ s t c, ratOrd.simplexNew exSpace exTriangle = some (.ok s) ∧ ratOrd.simplexNew exSpace exSegment = some (.ok t) ∧
    ratOrd.venn exOracle s t = some c ∧ c.IsPartial (id : ℚ → ℚ) 2 := by
  obtain ⟨s, h1, h2, -⟩ := exTriangle_simplex
  obtain ⟨t, g1, g2, -⟩ := exSegment_simplex
  obtain ⟨c, c1, -, -, c2, -⟩ := C135_venn ratOrd_models (D := 2) rfl exOracle_fair h2 g2
  exact ⟨s, t, c, h1, g1, c1, c2⟩

example : ∃ (a b : Coll ℚ Nat) (r : Coll ℚ Nat) (r' : Coll ℚ (Nat × Nat)), a.total (id : ℚ → ℚ) 2 ≠ ∅ ∧ b.total (id : ℚ → ℚ) 2 ≠ ∅ ∧
    ratOrd.subtractRaw exOracle a b = some r ∧ ratOrd.intersectionRaw exOracle2 a b = some r' := by
  obtain ⟨a, b, h1, h2, h3, h4, h5, h6⟩ := exColls
  obtain ⟨r, r1, -⟩ := C136_subtract ratOrd_models (D := 2) rfl exOracle_fair h1 h3 h2
  obtain ⟨r', r2, -⟩ := C136_intersection ratOrd_models (D := 2) rfl exOracle2_fair h1 h3 h2 h4
  exact ⟨a, b, r, r', h5, h6, r1, r2⟩

example : ∃ (a : Coll ℚ Unit) (r : Coll ℚ Unit), a.total (id : ℚ → ℚ) 2 ≠ ∅ ∧ ratOrd.unionRaw exOracle a a = some r := by
  obtain ⟨a, -, h1, -, h3, -, h5, -⟩ := exColls
  have hs : (a.mapLabel fun _ => ()).spxs = a.spxs := by simp [Coll.spxs, Coll.mapLabel]
  have hc : Cells (id : ℚ → ℚ) 2 exSpace (a.mapLabel fun _ => ()).spxs := by rw [hs]; exact (Coll.cells_iff h1.ambient).2 ⟨h1, h3⟩
  obtain ⟨hv, hd⟩ := (Coll.cells_iff (c := a.mapLabel fun _ => ()) h1.ambient).1 hc
  obtain ⟨r, r1, -⟩ := C136_union ratOrd_models (D := 2) rfl exOracle_fair hv hd hv hd
  refine ⟨_, r, ?_, r1⟩
  rw [Coll.total_eq hv.valid, hs, ← Coll.total_eq h1.valid]
  exact h5

end Verif.Geometry
