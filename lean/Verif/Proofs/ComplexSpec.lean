import Verif.Proofs.Complex4
import Verif.Spec.Complex

/-! # The specification of collections in terms of vertex sets -/

namespace Verif.Geometry

open Classical Verif.Rings

noncomputable local instance (priority := 5000) decPt24 (K : Type) (d : Nat) : DecidableEq (Fin d → K) := fun a b => Classical.propDecidable (a = b)

section
variable {α K T U β : Type} [Field K] [LinearOrder K] [IsStrictOrderedRing K] {S : OrdOps α} {v : α → K} {D n : Nat} {sp : Space}

theorem Simplex.Valid.openRegion {s : Simplex α} (hs : s.Valid v D sp) : s.openRegion v D = openSimplex K (s.verts v D) := by
  unfold Simplex.openRegion Simplex.closedRegion
  rw [pointSet_verts]
  exact relInterior_simplex hs.points.verts_indep

theorem nodup_pointSet {l : List β} {f : β → Simplex α} : (l.map fun e => pointSet v D (f e).points).Nodup ↔ (l.map fun e => (f e).verts v D).Nodup := by
  have : (l.map fun e => pointSet v D (f e).points) = (l.map fun e => (f e).verts v D).map fun A : Finset (Fin D → K) => (A : Set (Fin D → K)) := by
    rw [List.map_map]
    exact List.map_congr_left fun e _ => pointSet_verts (f e)
  rw [this]
  exact List.nodup_map_iff Finset.coe_injective

theorem Coll.region_eq {c : Coll α T} (hv : ∀ e ∈ c.simplexes, e.1.Valid v D sp) (label : T) : c.region v D label = regionWith v D c.simplexes label := by
  ext x
  constructor
  · rintro ⟨e, he, h1, h2⟩
    exact ⟨e, he, h1, (hv e he).openRegion ▸ h2⟩
  · rintro ⟨e, he, h1, h2⟩
    exact ⟨e, he, h1, (hv e he).openRegion.symm ▸ h2⟩

theorem Coll.total_eq {c : Coll α T} (hv : ∀ e ∈ c.simplexes, e.1.Valid v D sp) : c.total v D = regionOf v D c.spxs := by
  ext x
  constructor
  · rintro ⟨e, he, h2⟩
    exact ⟨e.1, List.mem_map_of_mem he, (hv e he).openRegion ▸ h2⟩
  · rintro ⟨s, hs, h2⟩
    obtain ⟨e, he, rfl⟩ := List.mem_map.1 hs
    exact ⟨e, he, (hv e he).openRegion.symm ▸ h2⟩

theorem Coll.subset_region [DecidableEq T] {c : Coll α T} (hv : ∀ e ∈ c.simplexes, e.1.Valid v D sp) (label : T) :
    regionOf v D (c.subsetByLabel label).spxs = c.region v D label := by
  rw [Coll.region_eq hv]
  ext x
  constructor
  · rintro ⟨s, hs, hx⟩
    exact ⟨_, mem_subsetByLabel.1 hs, rfl, hx⟩
  · rintro ⟨e, he, rfl, hx⟩
    exact ⟨e.1, mem_subsetByLabel.2 he, hx⟩

theorem Coll.cells_iff {c : Coll α T} (ha : c.ambient = sp) : Cells v D sp c.spxs ↔ c.Valid v D sp ∧ c.IsDisjoint v D := by
  have hmap : c.spxs.map (Simplex.verts v D) = c.simplexes.map fun e => e.1.verts v D := by unfold Coll.spxs; rw [List.map_map]; rfl
  constructor
  · intro h
    have hv : ∀ e ∈ c.simplexes, e.1.Valid v D sp := fun e he => h.valid _ (List.mem_map_of_mem he)
    have hn : (c.simplexes.map fun e => e.1.verts v D).Nodup := hmap ▸ h.nodup
    refine ⟨⟨ha, hv, fun e he => h.ne _ (List.mem_map_of_mem he), nodup_pointSet.2 hn⟩, ?_⟩
    rw [List.Nodup, List.pairwise_map] at hn
    refine hn.imp_of_mem ?_
    intro e f he hf hne
    rw [(hv e he).openRegion, (hv f hf).openRegion, Set.disjoint_left]
    intro x h1 h2
    exact hne (h.disj _ (List.mem_map_of_mem he) _ (List.mem_map_of_mem hf) x h1 h2)
  · rintro ⟨h, hd⟩
    refine ⟨?_, ?_, ?_, ?_⟩
    · intro s hs
      obtain ⟨e, he, rfl⟩ := List.mem_map.1 hs
      exact h.valid e he
    · intro s hs
      obtain ⟨e, he, rfl⟩ := List.mem_map.1 hs
      exact h.notNull e he
    · rw [hmap]; exact nodup_pointSet.1 h.nodup
    · intro s hs t ht x h1 h2
      obtain ⟨e, he, rfl⟩ := List.mem_map.1 hs
      obtain ⟨f, hf, rfl⟩ := List.mem_map.1 ht
      by_contra hne
      haveI : Std.Symm fun e f : Simplex α × T => Disjoint (e.1.openRegion v D) (f.1.openRegion v D) := ⟨fun _ _ hh => hh.symm⟩
      have := List.Pairwise.forall hd he hf (fun e => hne (by rw [e]))
      rw [(h.valid e he).openRegion, (h.valid f hf).openRegion, Set.disjoint_left] at this
      exact this h1 h2

theorem Coll.isPartial_iff {c : Coll α T} : c.IsPartial v D ↔ Meet v D c.spxs := by
  constructor
  · intro h s hs t ht
    obtain ⟨e, he, rfl⟩ := List.mem_map.1 hs
    obtain ⟨f, hf, rfl⟩ := List.mem_map.1 ht
    have := h e he f hf
    unfold Simplex.closedRegion at this
    simpa only [pointSet_verts] using this
  · intro h e he f hf
    have := h e.1 (List.mem_map_of_mem he) f.1 (List.mem_map_of_mem hf)
    unfold Simplex.closedRegion
    simpa only [pointSet_verts] using this

theorem Coll.IsPartial.disjoint {c : Coll α T} (h : c.Valid v D sp) (hp : c.IsPartial v D) : c.IsDisjoint v D := by
  have hn := nodup_pointSet.1 h.nodup
  rw [List.Nodup, List.pairwise_map] at hn
  refine hn.imp_of_mem ?_
  intro e f he hf hne
  rw [(h.valid e he).openRegion, (h.valid f hf).openRegion, Set.disjoint_left]
  intro x h1 h2
  apply hne
  have hm := (Coll.isPartial_iff.1 hp) e.1 (List.mem_map_of_mem he) f.1 (List.mem_map_of_mem hf)
  have hx : x ∈ convexHull K ((e.1.verts v D : Set (Fin D → K)) ∩ f.1.verts v D) := hm ▸ ⟨openSimplex_sub h1, openSimplex_sub h2⟩
  rw [← Finset.coe_inter] at hx
  have e1 := openSimplex_face (h.valid e he).points.verts_indep (B := e.1.verts v D ∩ f.1.verts v D) Finset.inter_subset_left h1 hx
  have e2 := openSimplex_face (h.valid f hf).points.verts_indep (B := e.1.verts v D ∩ f.1.verts v D) Finset.inter_subset_right h2 hx
  exact Finset.Subset.antisymm (e1.trans Finset.inter_subset_right) (e2.trans Finset.inter_subset_left)

omit [IsStrictOrderedRing K] in
theorem finite_pointSet (l : List (Vec α)) {A : Set (Fin D → K)} (hA : A ⊆ pointSet v D l) : ∃ B : Finset (Fin D → K), (B : Set (Fin D → K)) = A ∧ B ⊆ vertsOf v D l := by
  rw [← coe_vertsOf] at hA
  have hf : A.Finite := (Finset.finite_toSet _).subset hA
  exact ⟨hf.toFinset, hf.coe_toFinset, fun x hx => hA (by simpa using hx)⟩

theorem closedUnder_iff {c : Coll α T} : ClosedUnder v D c.spxs ↔ c.HasFaces v D := by
  constructor
  · intro h e he A hA hn
    obtain ⟨B, rfl, hB⟩ := finite_pointSet _ hA
    obtain ⟨t, ht, h1⟩ := List.mem_map.1 (h e.1 (List.mem_map_of_mem he) B hB (by exact_mod_cast hn))
    obtain ⟨f, hf, rfl⟩ := List.mem_map.1 ht
    exact ⟨f, hf, by rw [pointSet_verts, h1]⟩
  · intro h s hs A hA hn
    obtain ⟨e, he, rfl⟩ := List.mem_map.1 hs
    obtain ⟨f, hf, h1⟩ := h e he (A : Set (Fin D → K)) (by rw [pointSet_verts]; exact_mod_cast hA) (by exact_mod_cast hn)
    rw [pointSet_verts] at h1
    exact List.mem_map.2 ⟨f.1, List.mem_map_of_mem hf, Finset.coe_injective h1⟩

theorem exists_pointSet {l : List β} {f : β → Simplex α} {A : Finset (Fin D → K)} :
    (∃ e ∈ l, pointSet v D (f e).points = (A : Set (Fin D → K))) ↔ A ∈ l.map fun e => (f e).verts v D := by
  rw [List.mem_map]
  constructor
  · rintro ⟨e, he, h1⟩; rw [pointSet_verts] at h1; exact ⟨e, he, Finset.coe_injective h1⟩
  · rintro ⟨e, he, rfl⟩; exact ⟨e, he, pointSet_verts _⟩

theorem Cplx.records {c : Cplx α T} (h : ∀ e ∈ c.cells, (e.inv.map (Simplex.verts v D)).Nodup ∧
    ∀ A, A ∈ e.inv.map (Simplex.verts v D) ↔ e.spx.verts v D ⊂ A ∧ A ∈ c.labelled.map fun e => e.1.verts v D) : c.Records v D := by
  intro e he
  obtain ⟨h1, h2⟩ := h e he
  refine ⟨nodup_pointSet.2 h1, fun A => ?_⟩
  have hl : ∀ B : Finset (Fin D → K), (∃ f ∈ c.cells, pointSet v D f.spx.points = (B : Set (Fin D → K))) ↔ B ∈ c.labelled.map fun e => e.1.verts v D := by
    intro B
    rw [exists_pointSet (f := fun e : Cell α T => e.spx)]
    unfold Cplx.labelled
    rw [List.map_map]; rfl
  constructor
  · rintro ⟨t, ht, rfl⟩
    obtain ⟨h3, h4⟩ := (h2 _).1 (List.mem_map_of_mem ht)
    rw [pointSet_verts, pointSet_verts]
    exact ⟨by exact_mod_cast h3, (hl _).2 h4⟩
  · rintro ⟨h3, f, hf, rfl⟩
    have h4 := (hl (f.spx.verts v D)).1 ⟨f, hf, pointSet_verts _⟩
    rw [pointSet_verts, pointSet_verts] at h3
    obtain ⟨t, ht, h5⟩ := List.mem_map.1 ((h2 _).2 ⟨by exact_mod_cast h3, h4⟩)
    exact ⟨t, ht, by rw [pointSet_verts, pointSet_verts, h5]⟩

end

end Verif.Geometry
