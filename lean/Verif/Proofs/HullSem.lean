import Verif.Proofs.HullNew

/-! # What a hull denotes -/

namespace Verif.Geometry

open Classical Verif.Rings

noncomputable local instance (priority := 5000) decPt8 (K : Type) (d : Nat) : DecidableEq (Fin d → K) := fun a b => Classical.propDecidable (a = b)

section
variable {α K : Type} [Field K] [LinearOrder K] [IsStrictOrderedRing K] {S : OrdOps α} {v : α → K} {D n : Nat} {sp : Space}
  {c : Hull α} {P : Set (Fin D → K)} {f : (Fin n → K) →ᵃ[K] (Fin D → K)} {l : Finset (Fin n → K) → (Fin n → K) →ᵃ[K] K}

namespace HullInv
variable (hi : HullInv S v D n c P f l)
include hi

/-- the convex hull of the points, in the coordinates of the span -/
theorem region : convexHull K P = f '' {x | ∀ F ∈ c.facs v n, 0 ≤ l F x} := by
  have h1 : convexHull K P = convexHull K (f '' {x | ∃ T ∈ c.simps v n, x ∈ T}) := by
    apply Set.Subset.antisymm
    · exact convexHull_min hi.conv (convex_convexHull K _)
    · apply convexHull_mono
      rintro _ ⟨x, ⟨T, hT, hx⟩, rfl⟩
      exact hi.verts T hT x hx
  rw [h1, ← AffineMap.image_convexHull]
  congr 1
  ext x
  rw [Set.mem_setOf_eq, hi.hull.region, hi.hull.region_conv]

theorem nonempty : P.Nonempty := by
  obtain ⟨T, hT⟩ := hi.hull.nonempty
  have : 0 < T.card := by rw [(hi.hull.full T hT).card]; omega
  obtain ⟨x, hx⟩ := Finset.card_pos.1 this
  exact ⟨_, hi.verts T hT x hx⟩

theorem span : affineSpan K P = (⊤ : AffineSubspace K (Fin n → K)).map f := by
  apply le_antisymm
  · rw [affineSpan_le]
    intro x hx
    have h1 := subset_convexHull K P hx
    rw [hi.region] at h1
    obtain ⟨y, -, rfl⟩ := h1
    exact ⟨y, AffineSubspace.mem_top _ _ _, rfl⟩
  · obtain ⟨T, hT⟩ := hi.hull.nonempty
    have h1 : affineSpan K (T : Set (Fin n → K)) = ⊤ := by
      have := (hi.hull.full T hT).basis.tot
      have e : Set.range (hi.hull.full T hT).basis = (T : Set (Fin n → K)) := by
        ext y
        constructor
        · rintro ⟨⟨z, hz⟩, rfl⟩; exact hz
        · intro hy; exact ⟨⟨y, hy⟩, rfl⟩
      rw [← e]; exact this
    rw [← h1, AffineSubspace.map_span]
    apply affineSpan_mono
    rintro _ ⟨x, hx, rfl⟩
    exact hi.verts T hT x hx

theorem finrank : Module.finrank K (vectorSpan K P) = n := by
  rw [← direction_affineSpan, hi.span, AffineSubspace.map_direction, AffineSubspace.direction_top, Submodule.map_top]
  rw [LinearMap.finrank_range_of_inj ((AffineMap.linear_injective_iff f).2 hi.map.inj), Module.finrank_fin_fun]

end HullInv

/-- the embedded simplices -/
theorem HullInv.embedded (hi : HullInv S v D n c P f l) (h : S.Models v) {L : List (Simplex α)} (hL : ∀ s ∈ L, s.Valid v n c.subspace.embedded) :
    ∃ G : Simplex α → Simplex α, (L.mapM fun s => do
        let pts ← s.points.mapM (S.embedPoint c.subspace)
        S.simplexUnwrap c.ambient pts) = some (L.map G) ∧
      ∀ s ∈ L, (G s).Valid v D c.ambient ∧ (G s).verts v D = (s.verts v n).image f ∧ (G s).points.length = s.points.length := by
  refine mapM_choose (L := L) (Q := fun (s t : Simplex α) => t.Valid v D c.ambient ∧ t.verts v D = (s.verts v n).image f ∧ t.points.length = s.points.length) ?_
  intro s hs
  have hsv := hL s hs
  obtain ⟨qs, q1, q2, q3, q4, q5⟩ := hi.map.embedAll (pts := s.points) (fun q hq => hsv.points.mem q hq)
  have hind : Independent v D c.subspace.ambient qs := by
    apply independent_of_verts q3
    · rw [q4]
      have h2 := (hsv.points.verts_indep).map' f hi.map.inj
      have h3 := h2.range
      have e : Set.range (f ∘ fun x : vertsOf v n s.points => (x : Fin n → K)) = (((vertsOf v n s.points).image f : Finset (Fin D → K)) : Set (Fin D → K)) := by
        ext y; simp
      rw [e] at h3
      exact h3
    · rw [q4, Finset.card_image_of_injective _ hi.map.inj, hsv.points.verts_card, q2]
  obtain ⟨t, t1, t2, t3⟩ := h.simplexUnwrap hi.sub.dim hind
  refine ⟨t, ?_, hi.amb ▸ t2, ?_, by rw [t3.length_eq, q2]⟩
  · simp only [q1, ← hi.amb, t1, Option.bind_eq_bind, Option.bind_some]
  · have : t.verts v D = vertsOf v D qs := vertsOf_perm t3
    rw [this, q4]; rfl

/-- the defining points -/
theorem HullOf.definingPoints (hc : HullOf S v D c P) (h : S.Models v) {o : Oracle α} (ho : o.Fair) :
    ∃ ps, S.definingPoints o c = some ps ∧ (∀ p ∈ ps, p.In c.ambient) ∧ (ps.map (Vec.val v D)).Nodup ∧ pointSet v D ps ⊆ P ∧
      convexHull K (pointSet v D ps) = convexHull K P := by
  rcases hc with ⟨rfl, hc⟩ | ⟨n, f, l, hi⟩
  · refine ⟨[], ?_, by simp, by simp, ?_, ?_⟩
    · unfold OrdOps.definingPoints; rw [hc.dim]; rfl
    · unfold pointSet; simp
    · unfold pointSet; simp
  · have hdim := hi.dim
    cases n with
    | zero =>
      obtain ⟨root, span, r1, r2, r3, -, hl, -⟩ := hi.sub.rootAndSpan h hi.len
      have hr : root.val v D = f 0 := by
        rw [hi.map.zero (by rw [hi.len]; omega)]
        rw [List.getElem?_eq_getElem (by rw [hi.len]; omega)] at r2
        rw [Option.some.inj r2]
      have hP : P = {root.val v D} := by
        obtain ⟨x, hx⟩ := hi.nonempty
        have hall : ∀ y ∈ P, y = f 0 := by
          intro y hy
          have h1 := subset_convexHull K P hy
          rw [hi.region] at h1
          obtain ⟨z, -, rfl⟩ := h1
          rw [Subsingleton.elim z 0]
        ext y
        rw [Set.mem_singleton_iff, hr]
        exact ⟨hall y, fun e => by rw [e, ← hall x hx]; exact hx⟩
      have hset : pointSet v D [root] = {root.val v D} := by
        unfold pointSet; ext y; simp [eq_comm]
      refine ⟨[root], ?_, ?_, by simp, ?_, ?_⟩
      · unfold OrdOps.definingPoints
        rw [hdim]
        simp only [r1, hl, assertThat, beq_self_eq_true, if_true, Option.bind_eq_bind, Option.bind_some]
      · intro p hp
        rw [List.mem_singleton.1 hp]; exact hi.amb ▸ r3
      · rw [hset, hP]
      · rw [hset, hP]
    | succ n =>
      obtain ⟨qs, q1, -, q3, q4, -⟩ := hi.map.embedAll (pts := c.facets.flatMap fun f => f.simplex.points) (by
        intro p hp
        obtain ⟨o', ho', hp⟩ := List.mem_flatMap.1 hp
        exact (hi.facets o' ho').simplex.points.mem p hp)
      obtain ⟨set, s1, s2, s3, s4⟩ := hashInsert_set (eq := S.vecEq) (P := fun p => p.In c.subspace.ambient) (key := fun p : Vec α => p.val v D) (fun x y hx hy => by
        rw [h.vecEq hi.sub.dim hx hy]; congr) q3
      have hperm := ho.points [] set
      have hset : pointSet v D (o.points [] set) = f '' {x | ∃ F ∈ c.facs v (n + 1), x ∈ F} := by
        ext x
        have e1 : x ∈ pointSet v D (o.points [] set) ↔ x ∈ set.map fun p => p.val v D := by
          unfold pointSet
          rw [Set.mem_setOf_eq, List.mem_map]
          simp only [hperm.mem_iff]
        have e2 : x ∈ qs.map (fun p => p.val v D) ↔ x ∈ vertsOf v D qs := by rw [mem_vertsOf, List.mem_map]
        rw [e1, s4, e2, q4, Finset.mem_image]
        constructor
        · rintro ⟨y, hy, rfl⟩
          obtain ⟨p, hp, rfl⟩ := mem_vertsOf.1 hy
          obtain ⟨o', ho', hp⟩ := List.mem_flatMap.1 hp
          exact ⟨_, ⟨_, mem_facs.2 ⟨o', ho', rfl⟩, mem_vertsOf.2 ⟨p, hp, rfl⟩⟩, rfl⟩
        · rintro ⟨y, ⟨F, hF, hy⟩, rfl⟩
          obtain ⟨o', ho', rfl⟩ := mem_facs.1 hF
          obtain ⟨p, hp, rfl⟩ := mem_vertsOf.1 hy
          exact ⟨_, mem_vertsOf.2 ⟨p, List.mem_flatMap.2 ⟨o', ho', hp⟩, rfl⟩, rfl⟩
      have hsub : f '' {x | ∃ F ∈ c.facs v (n + 1), x ∈ F} ⊆ P := by
        rintro _ ⟨x, ⟨F, hF, hx⟩, rfl⟩
        obtain ⟨T, hT, i, -, he⟩ := hi.hull.facet hF
        exact hi.verts T hT x (Finset.mem_of_mem_erase (he.symm ▸ hx))
      refine ⟨o.points [] set, ?_, ?_, ?_, ?_, ?_⟩
      · unfold OrdOps.definingPoints
        rw [hdim]
        simp only [q1, s1, Option.bind_eq_bind, Option.bind_some]
      · intro p hp
        rw [← hi.amb]
        exact q3 p (s2 p (hperm.mem_iff.1 hp))
      · exact (hperm.map _).nodup_iff.2 s3
      · rw [hset]; exact hsub
      · rw [hset]
        apply Set.Subset.antisymm (convexHull_mono hsub)
        rw [hi.region, ← AffineMap.image_convexHull]
        apply Set.image_mono
        intro x hx
        exact hi.hull.boundary_conv (by rw [Module.finrank_fin_fun]; omega) hx

end

end Verif.Geometry
