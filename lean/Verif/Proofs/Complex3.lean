import Verif.Proofs.Complex2

/-! # The Venn decomposition of two simplices -/

namespace Verif.Geometry

open Classical Verif.Rings

noncomputable local instance (priority := 5000) decPt22 (K : Type) (d : Nat) : DecidableEq (Fin d → K) := fun a b => Classical.propDecidable (a = b)

section
variable {α K T U : Type} [Field K] [LinearOrder K] [IsStrictOrderedRing K] {S : OrdOps α} {v : α → K} {D n : Nat} {sp : Space} {c : Hull α}
  {P : Set (Fin D → K)}

/-! ## Extending a hull keeps its faces -/

theorem HullInv.face_iff {f : (Fin n → K) →ᵃ[K] (Fin D → K)} {l : Finset (Fin n → K) → (Fin n → K) →ᵃ[K] K} (hi : HullInv S v D n c P f l) (h : S.Models v)
    (A : Finset (Fin D → K)) : c.Face S v D A ↔ ∃ T ∈ c.simps v n, A ⊆ T.image f := by
  obtain ⟨G, g1, g2⟩ := hi.embedded h hi.interior
  have e : S.embeddedInterior c = some (c.interior.map G) := g1
  unfold Hull.Face
  rw [e]
  constructor
  · rintro ⟨L, hL, s, hs, h1⟩
    cases hL
    obtain ⟨t, ht, rfl⟩ := List.mem_map.1 hs
    exact ⟨_, mem_simps.2 ⟨t, ht, rfl⟩, (g2 t ht).2.1 ▸ h1⟩
  · rintro ⟨T, hT, h1⟩
    obtain ⟨t, ht, rfl⟩ := mem_simps.1 hT
    exact ⟨_, rfl, G t, List.mem_map_of_mem ht, (g2 t ht).2.1 ▸ h1⟩

theorem HullNull.face (hc : HullNull v D c) {A : Finset (Fin D → K)} (hA : c.Face S v D A) : A = ∅ := by
  obtain ⟨L, hL, s, hs, h1⟩ := hA
  unfold OrdOps.embeddedInterior at hL
  rw [hc.interior] at hL
  have : L = [⟨c.ambient, []⟩] := by
    have h2 : S.simplexUnwrap c.ambient [] = some ⟨c.ambient, []⟩ := rfl
    simp [h2] at hL
    exact hL.symm
  subst this
  rw [List.mem_singleton] at hs
  subst hs
  exact Finset.subset_empty.1 h1

theorem HullOf.extend_face (hc : HullOf S v D c P) (h : S.Models v) {o : Oracle α} (ho : o.Fair) {pt : Vec α} (hp : pt.In c.ambient) {c' : Hull α}
    (he : S.hullExtend o c pt = some c') {A : Finset (Fin D → K)} (hA : c.Face S v D A) (hn : A.Nonempty) : c'.Face S v D A := by
  rcases hc with ⟨rfl, hc⟩ | ⟨n, f, l, hi⟩
  · rw [hc.face hA] at hn; simp at hn
  · rcases hi.map.unembed pt (hi.amb ▸ hp) with ⟨q, q1, q2, q3⟩ | ⟨q1, q2⟩
    · obtain ⟨c2, l', h1, h2, h3, h4⟩ := hi.extendInside h o (ho.ridges []) q2
      unfold OrdOps.hullExtend at he
      simp only [hp.space, hi.check h, q1, h1, h2.check h, assertThat, decide_true, if_true, Option.bind_eq_bind, Option.bind_some] at he
      cases he
      obtain ⟨T, hT, h5⟩ := (hi.face_iff h A).1 hA
      exact (h2.face_iff h A).2 ⟨T, h4 hT, h5⟩
    · obtain ⟨c2, f', l', h1, h2, h3, -, h4⟩ := hi.extendOutside h o hp q2
      unfold OrdOps.hullExtend at he
      simp only [hp.space, hi.check h, q1, h1, h2.check h, assertThat, decide_true, if_true, Option.bind_eq_bind, Option.bind_some] at he
      cases he
      obtain ⟨T, hT, h5⟩ := (hi.face_iff h A).1 hA
      obtain ⟨T', hT', h6⟩ := h4 T hT
      exact (h2.face_iff h A).2 ⟨T', hT', h5.trans h6⟩

theorem HullOf.loop_face (h : S.Models v) {o : Oracle α} (ho : o.Fair) {pts : List (Vec α)} : ∀ {i : Nat} {c : Hull α} {P : Set (Fin D → K)} (_ : HullOf S v D c P)
    (_ : ∀ p ∈ pts, p.In c.ambient) {c' : Hull α} (_ : S.hullLoop o i c pts = some c') {A : Finset (Fin D → K)} (_ : c.Face S v D A) (_ : A.Nonempty),
    c'.Face S v D A := by
  induction pts with
  | nil =>
    intro i c P hc _ c' he A hA _
    cases he
    exact hA
  | cons p ps ih =>
    intro i c P hc hp c' he A hA hn
    obtain ⟨c1, h1, h2, h3⟩ := hc.extend h (ho.sub i) (hp p (by simp))
    rw [OrdOps.hullLoop, h1] at he
    exact ih h2 (fun q hq => h3 ▸ hp q (by simp [hq])) he (hc.extend_face h (ho.sub i) (hp p (by simp)) h1 hA hn) hn

/-! ## Lists of disjoint open simplices -/

/-- open simplices that do not meet -/
structure Cells (v : α → K) (D : Nat) (sp : Space) (l : List (Simplex α)) : Prop where
  valid : ∀ s ∈ l, s.Valid v D sp
  ne : ∀ s ∈ l, s.points ≠ []
  nodup : (l.map (Simplex.verts v D)).Nodup
  disj : ∀ s ∈ l, ∀ t ∈ l, ∀ x, x ∈ openSimplex K (s.verts v D) → x ∈ openSimplex K (t.verts v D) → s.verts v D = t.verts v D

/-- the closed simplices meet in common faces -/
def Meet (v : α → K) (D : Nat) (l : List (Simplex α)) : Prop :=
  ∀ s ∈ l, ∀ t ∈ l, convexHull K (s.verts v D : Set (Fin D → K)) ∩ convexHull K (t.verts v D : Set (Fin D → K)) =
    convexHull K ((s.verts v D : Set (Fin D → K)) ∩ t.verts v D)

/-- the union of the open simplices -/
def regionOf (v : α → K) (D : Nat) (l : List (Simplex α)) : Set (Fin D → K) := {x | ∃ s ∈ l, x ∈ openSimplex K (s.verts v D)}

omit [IsStrictOrderedRing K] in
theorem Cells.perm {l l' : List (Simplex α)} (hl : Cells v D sp l) (hp : l'.Perm l) : Cells v D sp l' :=
  ⟨fun s hs => hl.valid s (hp.mem_iff.1 hs), fun s hs => hl.ne s (hp.mem_iff.1 hs), (hp.map _).nodup_iff.2 hl.nodup,
    fun s hs t ht => hl.disj s (hp.mem_iff.1 hs) t (hp.mem_iff.1 ht)⟩

omit [IsStrictOrderedRing K] in
theorem regionOf_perm {l l' : List (Simplex α)} (hp : l'.Perm l) : regionOf v D l' = regionOf v D l := by
  ext x; simp only [regionOf, Set.mem_setOf_eq, hp.mem_iff]

omit [IsStrictOrderedRing K] in
theorem regionOf_keys {l l' : List (Simplex α)} (hp : ∀ A, A ∈ l'.map (Simplex.verts v D) ↔ A ∈ l.map (Simplex.verts v D)) : regionOf v D l' = regionOf v D l := by
  ext x
  have : ∀ l : List (Simplex α), x ∈ regionOf v D l ↔ ∃ A ∈ l.map (Simplex.verts v D), x ∈ openSimplex K A := by
    intro l; simp [regionOf]
  rw [this, this]
  simp only [hp]

theorem Simplex.verts_nonempty {s : Simplex α} (h : s.points ≠ []) : (s.verts v D : Finset (Fin D → K)).Nonempty :=
  Finset.nonempty_iff_ne_empty.2 fun e => h (vertsOf_eq_empty.1 e)

/-- the open pieces of one simplex -/
theorem OrdOps.Models.vennParts (h : S.Models v) {o : Oracle α} (ho : o.Fair) {s : Simplex α} (hs : s.Valid v D c.ambient) (hc : HullOf S v D c P)
    (hP : convexHull K P ⊆ convexHull K (s.verts v D : Set (Fin D → K))) :
    ∃ l, S.vennParts o c s = some l ∧ Cells v D c.ambient l ∧ regionOf v D l = openSimplex K (s.verts v D) ∧
      (∀ A, A.Nonempty → c.Face S v D A → (∀ x, x ∈ openSimplex K A → x ∈ openSimplex K (s.verts v D) → A ∈ l.map (Simplex.verts v D)) ∧
        (∀ B ∈ l.map (Simplex.verts v D), ∀ C ⊆ B, C.Nonempty → ∀ x, x ∈ openSimplex K A → x ∈ openSimplex K C → A = C)) ∧
      Meet v D l ∧ ∀ u ∈ l, convexHull K (u.verts v D : Set (Fin D → K)) ⊆ convexHull K (s.verts v D : Set (Fin D → K)) := by
  obtain ⟨e, e1, e2, e3⟩ := HullOf.loop (i := 0) h (ho.sub 0) hc (pts := s.points) hs.points.mem
  have hconv : convexHull K (pointSet v D s.points ∪ P) = convexHull K (s.verts v D : Set (Fin D → K)) := by
    apply Set.Subset.antisymm
    · apply convexHull_min _ (convex_convexHull K _)
      apply Set.union_subset
      · rw [pointSet_verts]; exact subset_convexHull K _
      · exact (subset_convexHull K _).trans hP
    · rw [← pointSet_verts]; exact convexHull_mono Set.subset_union_left
  obtain ⟨k, k1, k2⟩ := e2.asComplex h (ho.sub 1)
  rw [hconv] at k2
  have hrel : relInterior K (convexHull K (s.verts v D : Set (Fin D → K))) = openSimplex K (s.verts v D) := relInterior_simplex hs.points.verts_indep
  set l0 : List (Simplex α) := (k.subsetByLabel .interior).spxs with hl0
  have hml : ∀ t, t ∈ l0 ↔ ∃ a ∈ k.labelled, a.2 = .interior ∧ a.1 = t := by
    intro t
    rw [hl0]
    simp [Coll.spxs, Cplx.subsetByLabel, Coll.subsetByLabel, Coll.mapLabel, Coll.subsetByFilter, Cplx.toPartial]
  have hkey : l0.map (Simplex.verts v D) = (k.labelled.filter fun a => decide (a.2 = .interior)).map fun a => a.1.verts v D := by
    rw [hl0]
    simp [Coll.spxs, Cplx.subsetByLabel, Coll.subsetByLabel, Coll.mapLabel, Coll.subsetByFilter, Cplx.toPartial, Function.comp_def]
  have hcells : Cells v D c.ambient l0 := by
    refine ⟨fun t ht => ?_, fun t ht => ?_, ?_, fun t ht u hu x hx hx' => ?_⟩
    · obtain ⟨a, ha, -, rfl⟩ := (hml t).1 ht
      exact e3 ▸ (k2.valid a ha).1
    · obtain ⟨a, ha, -, rfl⟩ := (hml t).1 ht
      exact (k2.valid a ha).2
    · rw [hkey]
      exact k2.nodup.sublist (List.filter_sublist.map _)
    · obtain ⟨a, ha, -, rfl⟩ := (hml t).1 ht
      obtain ⟨b, hb, -, rfl⟩ := (hml u).1 hu
      rw [k2.disj a ha b hb x hx hx']
  have hin : ∀ a ∈ k.labelled, ∀ x, x ∈ openSimplex K (a.1.verts v D) → x ∈ openSimplex K (s.verts v D) → a.1 ∈ l0 := by
    intro a ha x hx hx'
    rw [hml]
    refine ⟨a, ha, ?_, rfl⟩
    cases hl : a.2 with
    | interior => rfl
    | boundary =>
      have := (k2.boundary a ha hl hx).2
      rw [← hrel] at hx'
      exact absurd hx' this
  have hperm := (ho.simplices [2] l0)
  refine ⟨o.simplices [2] l0, ?_, hcells.perm hperm, ?_, ?_, ?_, ?_⟩
  · unfold OrdOps.vennParts
    simp only [e1, k1, Option.bind_eq_bind, Option.bind_some, hl0]
  · rw [regionOf_perm hperm]
    ext x
    constructor
    · rintro ⟨t, ht, hx⟩
      obtain ⟨a, ha, hl, rfl⟩ := (hml t).1 ht
      rw [← hrel]; exact k2.interior a ha hl hx
    · intro hx
      obtain ⟨a, ha, hxa⟩ := k2.cover x (openSimplex_sub hx)
      exact ⟨a.1, hin a ha x hxa hx, hxa⟩
  · intro A hAn hA
    obtain ⟨a, ha, rfl⟩ := List.mem_map.1 ((k2.faces A).2 ⟨hAn, HullOf.loop_face h (ho.sub 0) hc hs.points.mem e1 hA hAn⟩)
    constructor
    · intro x hx hx'
      rw [(hperm.map _).mem_iff]
      exact List.mem_map_of_mem (hin a ha x hx hx')
    · intro B hB C hC hCn x hx hx'
      rw [(hperm.map _).mem_iff] at hB
      obtain ⟨t, ht, rfl⟩ := List.mem_map.1 hB
      obtain ⟨b, hb, -, rfl⟩ := (hml t).1 ht
      obtain ⟨-, L, hL, u, hu, h1⟩ := (k2.faces (b.1.verts v D)).1 (List.mem_map_of_mem (f := fun e : Simplex α × IBLabel => e.1.verts v D) hb)
      obtain ⟨b', hb', rfl⟩ := List.mem_map.1 ((k2.faces C).2 ⟨hCn, L, hL, u, hu, hC.trans h1⟩)
      rw [k2.disj a ha b' hb' x hx hx']
  · intro t ht u hu
    obtain ⟨a, ha, -, rfl⟩ := (hml t).1 (hperm.mem_iff.1 ht)
    obtain ⟨b, hb, -, rfl⟩ := (hml u).1 (hperm.mem_iff.1 hu)
    exact k2.meet a ha b hb
  · intro t ht
    obtain ⟨a, ha, -, rfl⟩ := (hml t).1 (hperm.mem_iff.1 ht)
    exact k2.sub a ha

/-- what the Venn decomposition is -/
structure VennOf (v : α → K) (D : Nat) (sp : Space) (s t : Simplex α) (c : Coll α VennLabel) : Prop where
  ambient : c.ambient = sp
  cells : Cells v D sp c.spxs
  meet : Meet v D c.spxs
  left : regionOf v D (c.subsetByLabel .left).spxs = openSimplex K (s.verts v D) \ openSimplex K (t.verts v D)
  middle : regionOf v D (c.subsetByLabel .middle).spxs = openSimplex K (s.verts v D) ∩ openSimplex K (t.verts v D)
  right : regionOf v D (c.subsetByLabel .right).spxs = openSimplex K (t.verts v D) \ openSimplex K (s.verts v D)

omit [IsStrictOrderedRing K] in
theorem mem_subsetByLabel [DecidableEq T] {c : Coll α T} {label : T} {t : Simplex α} : t ∈ (c.subsetByLabel label).spxs ↔ (t, label) ∈ c.simplexes := by
  simp only [Coll.spxs, Coll.subsetByLabel, Coll.mapLabel, Coll.subsetByFilter, List.mem_map, List.mem_filter, decide_eq_true_eq]
  constructor
  · rintro ⟨_, ⟨e, ⟨he, rfl⟩, rfl⟩, rfl⟩; exact he
  · intro he; exact ⟨_, ⟨_, ⟨he, rfl⟩, rfl⟩, rfl⟩

theorem OrdOps.Models.venn (h : S.Models v) (hd : sp.dim = D + 1) {o : Oracle α} (ho : o.Fair) {s t : Simplex α} (hs : s.Valid v D sp) (ht : t.Valid v D sp) :
    ∃ c, S.venn o s t = some c ∧ VennOf v D sp s t c := by
  obtain ⟨c1, a1, a2, a3⟩ := h.hullFromSimplex (o.sub 0) hd hs
  obtain ⟨c2, b1, b2, b3⟩ := h.hullFromSimplex (o.sub 1) hd ht
  obtain ⟨ov, P, o1, o2, o3, o4⟩ := a2.intersect b2 (b3.trans a3.symm) h (ho.sub 2)
  rw [pointSet_verts, pointSet_verts] at o3
  have o4 : ov.ambient = sp := o4.trans a3
  obtain ⟨ps, p1, p2, p3, p4, p5, hpp⟩ := h.vennParts (c := ov) (P := P) (ho.sub 3) (s := s) (by rw [o4]; exact hs) o2 (by rw [o3]; exact Set.inter_subset_left)
  obtain ⟨pt, q1, q2, q3, q4, q5, hpp'⟩ := h.vennParts (c := ov) (P := P) (ho.sub 4) (s := t) (by rw [o4]; exact ht) o2 (by rw [o3]; exact Set.inter_subset_right)
  rw [o4] at p2 q2
  obtain ⟨kov, ko1, ko2⟩ := o2.asComplex h ho
  -- the key fact: an open piece that meets the other simplex is a piece of both
  have key0 : ∀ x, x ∈ convexHull K (s.verts v D : Set (Fin D → K)) → x ∈ convexHull K (t.verts v D : Set (Fin D → K)) →
      ∃ A, x ∈ openSimplex K A ∧ (x ∈ openSimplex K (s.verts v D) → A ∈ ps.map (Simplex.verts v D)) ∧
        (x ∈ openSimplex K (t.verts v D) → A ∈ pt.map (Simplex.verts v D)) ∧
        (∀ B ∈ ps.map (Simplex.verts v D), ∀ C ⊆ B, C.Nonempty → x ∈ openSimplex K C → A = C) ∧
        (∀ B ∈ pt.map (Simplex.verts v D), ∀ C ⊆ B, C.Nonempty → x ∈ openSimplex K C → A = C) := by
    intro x hx hx'
    have hm : x ∈ convexHull K P := by rw [o3]; exact ⟨hx, hx'⟩
    obtain ⟨e, he, hxe⟩ := ko2.cover x hm
    obtain ⟨hn, hf⟩ := (ko2.faces (e.1.verts v D)).1 (List.mem_map_of_mem (f := fun e : Simplex α × IBLabel => e.1.verts v D) he)
    obtain ⟨u1, u2⟩ := p4 _ hn hf
    obtain ⟨w1, w2⟩ := q4 _ hn hf
    exact ⟨_, hxe, u1 x hxe, w1 x hxe, fun B hB C hC hCn hxC => u2 B hB C hC hCn x hxe hxC, fun B hB C hC hCn hxC => w2 B hB C hC hCn x hxe hxC⟩
  have hpsn : ∀ A ∈ ps.map (Simplex.verts v D), A.Nonempty := by
    intro A hA
    obtain ⟨u, hu, rfl⟩ := List.mem_map.1 hA
    exact Simplex.verts_nonempty (p2.ne u hu)
  have hptn : ∀ A ∈ pt.map (Simplex.verts v D), A.Nonempty := by
    intro A hA
    obtain ⟨u, hu, rfl⟩ := List.mem_map.1 hA
    exact Simplex.verts_nonempty (q2.ne u hu)
  have key : ∀ x, x ∈ openSimplex K (s.verts v D) → x ∈ openSimplex K (t.verts v D) →
      ∃ A, x ∈ openSimplex K A ∧ A ∈ ps.map (Simplex.verts v D) ∧ A ∈ pt.map (Simplex.verts v D) ∧
        (∀ B ∈ ps.map (Simplex.verts v D), x ∈ openSimplex K B → A = B) ∧ (∀ B ∈ pt.map (Simplex.verts v D), x ∈ openSimplex K B → A = B) := by
    intro x hx hx'
    obtain ⟨A, z1, z2, z3, z4, z5⟩ := key0 x (openSimplex_sub hx) (openSimplex_sub hx')
    exact ⟨A, z1, z2 hx, z3 hx', fun B hB => z4 B hB B (Finset.Subset.refl _) (hpsn B hB), fun B hB => z5 B hB B (Finset.Subset.refl _) (hptn B hB)⟩
  have heq : ∀ x y : Simplex α, x.Valid v D sp → y.Valid v D sp → S.simplexEq x y = some (decide (x.verts v D = y.verts v D)) :=
    fun x y hx hy => h.simplexEq_verts hd hx hy
  obtain ⟨all, r1, r2, r3, r4⟩ := hashInsert_fold (P := fun t : Simplex α => t.Valid v D sp) (key := Simplex.verts v D) (eq := S.simplexEq)
    heq q2.valid p2.valid p2.nodup
  have hallv : ∀ x ∈ all, x.Valid v D sp := fun x hx => (r2 x hx).elim (p2.valid x) (q2.valid x)
  set g : Simplex α → Simplex α × VennLabel := fun x => (x, if x.verts v D ∈ ps.map (Simplex.verts v D) then
    (if x.verts v D ∈ pt.map (Simplex.verts v D) then .middle else .left) else .right) with hg
  have hm : (all.mapM fun x => do
      let a ← hashHas S.simplexEq x ps
      let b ← hashHas S.simplexEq x pt
      let label ← vennLabel a b
      some (x, label)) = some (all.map g) := by
    apply mapM_eq_map
    intro x hx
    have e1 := hashHas_eq (P := fun t : Simplex α => t.Valid v D sp) (key := Simplex.verts v D) (eq := S.simplexEq) heq (hallv x hx) p2.valid
    have e2 := hashHas_eq (P := fun t : Simplex α => t.Valid v D sp) (key := Simplex.verts v D) (eq := S.simplexEq) heq (hallv x hx) q2.valid
    have hor := (r4 (x.verts v D)).1 (List.mem_map_of_mem hx)
    simp only [e1, e2, Option.bind_eq_bind, Option.bind_some, hg]
    by_cases h1 : x.verts v D ∈ ps.map (Simplex.verts v D) <;> by_cases h2 : x.verts v D ∈ pt.map (Simplex.verts v D)
    · simp only [h1, h2, decide_true, if_true, vennLabel, Option.bind_some]
    · simp only [h1, h2, decide_true, decide_false, if_true, if_false, vennLabel, Option.bind_some]
    · simp only [h1, h2, decide_true, decide_false, if_false, vennLabel, Option.bind_some]
    · exact absurd hor (by tauto)
  have hreg : ∀ (l : List (Simplex α)) A x, A ∈ l.map (Simplex.verts v D) → x ∈ openSimplex K A → x ∈ regionOf v D l := by
    intro l A x hA hx
    obtain ⟨s, hs, rfl⟩ := List.mem_map.1 hA
    exact ⟨s, hs, hx⟩
  have hreg' : ∀ (l : List (Simplex α)) x, x ∈ regionOf v D l → ∃ A ∈ l.map (Simplex.verts v D), x ∈ openSimplex K A := by
    rintro l x ⟨s, hs, hx⟩
    exact ⟨_, List.mem_map_of_mem hs, hx⟩
  have hlab : ∀ (lb : VennLabel) x, x ∈ regionOf v D ((⟨sp, all.map g⟩ : Coll α VennLabel).subsetByLabel lb).spxs ↔
      ∃ A ∈ all.map (Simplex.verts v D), x ∈ openSimplex K A ∧ (if A ∈ ps.map (Simplex.verts v D) then
        (if A ∈ pt.map (Simplex.verts v D) then .middle else .left) else .right) = lb := by
    intro lb x
    constructor
    · rintro ⟨a, ha, hx⟩
      rw [mem_subsetByLabel] at ha
      obtain ⟨b, hb, he⟩ := List.mem_map.1 ha
      have e1 : b = a := congrArg Prod.fst he
      subst e1
      exact ⟨_, List.mem_map_of_mem hb, hx, congrArg Prod.snd he⟩
    · rintro ⟨A, hA, hx, he⟩
      obtain ⟨b, hb, rfl⟩ := List.mem_map.1 hA
      refine ⟨b, ?_, hx⟩
      rw [mem_subsetByLabel]
      exact List.mem_map.2 ⟨b, hb, by rw [hg]; simp only [he]⟩
  have hps : ∀ A ∈ ps.map (Simplex.verts v D), ∀ x ∈ openSimplex K A, x ∈ openSimplex K (s.verts v D) := by
    intro A hA x hx; rw [← p3]; exact hreg _ A x hA hx
  have hpt : ∀ A ∈ pt.map (Simplex.verts v D), ∀ x ∈ openSimplex K A, x ∈ openSimplex K (t.verts v D) := by
    intro A hA x hx; rw [← q3]; exact hreg _ A x hA hx
  have hpsc : ∀ A ∈ ps.map (Simplex.verts v D), convexHull K (A : Set (Fin D → K)) ⊆ convexHull K (s.verts v D : Set (Fin D → K)) := by
    intro A hA
    obtain ⟨u, hu, rfl⟩ := List.mem_map.1 hA
    exact hpp u hu
  have hptc : ∀ A ∈ pt.map (Simplex.verts v D), convexHull K (A : Set (Fin D → K)) ⊆ convexHull K (t.verts v D : Set (Fin D → K)) := by
    intro A hA
    obtain ⟨u, hu, rfl⟩ := List.mem_map.1 hA
    exact hpp' u hu
  have hsp : (⟨sp, all.map g⟩ : Coll α VennLabel).spxs = all := by
    unfold Coll.spxs; rw [List.map_map]; exact List.map_id all
  refine ⟨⟨sp, all.map g⟩, ?_, rfl, ?_, ?_, ?_, ?_, ?_⟩
  · unfold OrdOps.venn OrdOps.spxUnion
    have hcs : commonSpace s.space t.space = some sp := by rw [hs.space, ht.space]; simp [commonSpace, assertThat]
    simp only [hcs, a1, b1, o1, p1, q1, r1, Option.bind_eq_bind, Option.bind_some] at hm ⊢
    rw [hm]
    simp only [Option.bind_some]
  · rw [hsp]
    refine ⟨hallv, fun x hx => (r2 x hx).elim (p2.ne x) (q2.ne x), r3, fun a ha b hb x hxa hxb => ?_⟩
    have h1 := (r4 _).1 (List.mem_map_of_mem (f := Simplex.verts v D) ha)
    have h2 := (r4 _).1 (List.mem_map_of_mem (f := Simplex.verts v D) hb)
    have hd1 : ∀ A ∈ ps.map (Simplex.verts v D), ∀ B ∈ ps.map (Simplex.verts v D), x ∈ openSimplex K A → x ∈ openSimplex K B → A = B := by
      intro A hA B hB
      obtain ⟨u, hu, rfl⟩ := List.mem_map.1 hA
      obtain ⟨w, hw, rfl⟩ := List.mem_map.1 hB
      exact p2.disj u hu w hw x
    have hd2 : ∀ A ∈ pt.map (Simplex.verts v D), ∀ B ∈ pt.map (Simplex.verts v D), x ∈ openSimplex K A → x ∈ openSimplex K B → A = B := by
      intro A hA B hB
      obtain ⟨u, hu, rfl⟩ := List.mem_map.1 hA
      obtain ⟨w, hw, rfl⟩ := List.mem_map.1 hB
      exact q2.disj u hu w hw x
    have hd3 : ∀ A ∈ ps.map (Simplex.verts v D), ∀ B ∈ pt.map (Simplex.verts v D), x ∈ openSimplex K A → x ∈ openSimplex K B → A = B := by
      intro A hA B hB hxA hxB
      obtain ⟨C, -, -, -, z1, z2⟩ := key x (hps A hA x hxA) (hpt B hB x hxB)
      rw [← z1 A hA hxA, ← z2 B hB hxB]
    rcases h1 with h1 | h1 <;> rcases h2 with h2 | h2
    · exact hd1 _ h1 _ h2 hxa hxb
    · exact hd3 _ h1 _ h2 hxa hxb
    · exact (hd3 _ h2 _ h1 hxb hxa).symm
    · exact hd2 _ h1 _ h2 hxa hxb
  · rw [hsp]
    have hm3 : ∀ A ∈ ps.map (Simplex.verts v D), ∀ B ∈ pt.map (Simplex.verts v D),
        convexHull K (A : Set (Fin D → K)) ∩ convexHull K (B : Set (Fin D → K)) = convexHull K ((A : Set (Fin D → K)) ∩ B) := by
      intro A hA B hB
      apply Set.Subset.antisymm
      · rintro x ⟨hxA, hxB⟩
        obtain ⟨C, hC, hCn, hxC⟩ := exists_openFace hxA
        obtain ⟨C', hC', hCn', hxC'⟩ := exists_openFace hxB
        obtain ⟨X, -, -, -, z1, z2⟩ := key0 x (hpsc A hA hxA) (hptc B hB hxB)
        have e1 := z1 A hA C hC hCn hxC
        have e2 := z2 B hB C' hC' hCn' hxC'
        have : (C : Set (Fin D → K)) ⊆ (A : Set (Fin D → K)) ∩ B := fun y hy => ⟨hC hy, hC' (by rw [← e2, e1]; exact hy)⟩
        exact convexHull_mono this (openSimplex_sub hxC)
      · exact Set.subset_inter (convexHull_mono Set.inter_subset_left) (convexHull_mono Set.inter_subset_right)
    intro a ha b hb
    have h1 := (r4 _).1 (List.mem_map_of_mem (f := Simplex.verts v D) ha)
    have h2 := (r4 _).1 (List.mem_map_of_mem (f := Simplex.verts v D) hb)
    rcases h1 with h1 | h1 <;> rcases h2 with h2 | h2
    · obtain ⟨u, hu, e1⟩ := List.mem_map.1 h1
      obtain ⟨w, hw, e2⟩ := List.mem_map.1 h2
      rw [← e1, ← e2]; exact p5 u hu w hw
    · exact hm3 _ h1 _ h2
    · rw [Set.inter_comm, hm3 _ h2 _ h1, Set.inter_comm]
    · obtain ⟨u, hu, e1⟩ := List.mem_map.1 h1
      obtain ⟨w, hw, e2⟩ := List.mem_map.1 h2
      rw [← e1, ← e2]; exact q5 u hu w hw
  · ext x
    rw [hlab]
    constructor
    · rintro ⟨A, hA, hx, he⟩
      by_cases h1 : A ∈ ps.map (Simplex.verts v D) <;> by_cases h2 : A ∈ pt.map (Simplex.verts v D) <;> simp [h1, h2] at he
      refine ⟨hps A h1 x hx, fun hxt => h2 ?_⟩
      obtain ⟨C, -, -, z0, z1, -⟩ := key x (hps A h1 x hx) hxt
      rw [← z1 A h1 hx]; exact z0
    · rintro ⟨hxs, hxt⟩
      rw [← p3] at hxs
      obtain ⟨A, hA, hx⟩ := hreg' _ _ hxs
      have h2 : A ∉ pt.map (Simplex.verts v D) := fun h2 => hxt (hpt A h2 x hx)
      exact ⟨A, (r4 A).2 (.inl hA), hx, by rw [if_pos hA, if_neg h2]⟩
  · ext x
    rw [hlab]
    constructor
    · rintro ⟨A, hA, hx, he⟩
      by_cases h1 : A ∈ ps.map (Simplex.verts v D) <;> by_cases h2 : A ∈ pt.map (Simplex.verts v D) <;> simp [h1, h2] at he
      exact ⟨hps A h1 x hx, hpt A h2 x hx⟩
    · rintro ⟨hxs, hxt⟩
      obtain ⟨A, hx, hA, hA', -⟩ := key x hxs hxt
      exact ⟨A, (r4 A).2 (.inl hA), hx, by rw [if_pos hA, if_pos hA']⟩
  · ext x
    rw [hlab]
    constructor
    · rintro ⟨A, hA, hx, he⟩
      by_cases h1 : A ∈ ps.map (Simplex.verts v D)
      · by_cases h2 : A ∈ pt.map (Simplex.verts v D) <;> simp [h1, h2] at he
      · have h2 := ((r4 A).1 hA).resolve_left h1
        refine ⟨hpt A h2 x hx, fun hxs => h1 ?_⟩
        obtain ⟨C, -, z0, -, -, z1⟩ := key x hxs (hpt A h2 x hx)
        rw [← z1 A h2 hx]; exact z0
    · rintro ⟨hxt, hxs⟩
      rw [← q3] at hxt
      obtain ⟨A, hA, hx⟩ := hreg' _ _ hxt
      have h2 : A ∉ ps.map (Simplex.verts v D) := fun h2 => hxs (hps A h2 x hx)
      exact ⟨A, (r4 A).2 (.inr hA), hx, by rw [if_neg h2]⟩

end

end Verif.Geometry
