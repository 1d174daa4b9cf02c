import Verif.Proofs.Complex

/-! # The complex of a convex hull -/

namespace Verif.Geometry

open Classical Verif.Rings

noncomputable local instance (priority := 5000) decPt21 (K : Type) (d : Nat) : DecidableEq (Fin d → K) := fun a b => Classical.propDecidable (a = b)

/-! ## Open simplices -/

section
variable {K E : Type} [Field K] [LinearOrder K] [IsStrictOrderedRing K] [AddCommGroup E] [Module K E]

theorem relInterior_simplex {A : Finset E} (hA : AffineIndependent K (fun x : A => (x : E))) :
    relInterior K (convexHull K (A : Set E)) = openSimplex K A := by
  ext x
  constructor
  · rintro ⟨hx, hy⟩
    obtain ⟨w, w0, w1, w2⟩ := Finset.mem_convexHull'.1 hx
    refine ⟨w, fun a ha => ?_, w1, w2⟩
    obtain ⟨t, ht, hm⟩ := hy a (subset_convexHull K _ ha)
    obtain ⟨u, u0, u1, u2⟩ := Finset.mem_convexHull'.1 hm
    have key := weights_unique hA (w := u) (w' := fun b => t * w b + (1 - t) * (if b = a then 1 else 0)) u1
      (by rw [Finset.sum_add_distrib, ← Finset.mul_sum, ← Finset.mul_sum, w1, Finset.sum_ite_eq' A a (fun _ => (1 : K)), if_pos ha]; ring)
      (by
        rw [u2]
        simp only [add_smul, Finset.sum_add_distrib, mul_smul, ← Finset.smul_sum, w2]
        rw [AffineMap.lineMap_apply_module]
        simp only [ite_smul, one_smul, zero_smul, Finset.sum_ite_eq', ha, if_true]
        rw [add_comm]) a ha
    have h0 := u0 a ha
    rw [key] at h0
    simp only [if_true, mul_one] at h0
    by_contra hn
    have : w a = 0 := le_antisymm (not_lt.1 hn) (w0 a ha)
    rw [this] at h0
    linarith
  · rintro ⟨w, w0, w1, w2⟩
    have hne : A.Nonempty := by
      rw [Finset.nonempty_iff_ne_empty]; rintro rfl; simp at w1
    refine ⟨Finset.mem_convexHull'.2 ⟨w, fun a ha => (w0 a ha).le, w1, w2⟩, fun y hy => ?_⟩
    obtain ⟨u, u0, u1, u2⟩ := Finset.mem_convexHull'.1 hy
    obtain ⟨b, hb, hmin⟩ := Finset.exists_min_image A w hne
    have hε := w0 b hb
    refine ⟨1 + w b, by linarith, Finset.mem_convexHull'.2 ⟨fun a => (1 + w b) * w a + (-w b) * u a, fun a ha => ?_, ?_, ?_⟩⟩
    · have h1 := hmin a ha
      have h2 : u a ≤ 1 := by
        rw [← u1]; exact Finset.single_le_sum (f := u) (fun i hi => u0 i hi) ha
      have h3 := w0 a ha
      have h4 : w b * u a ≤ w b * 1 := mul_le_mul_of_nonneg_left h2 hε.le
      have h5 : 0 < w b * w a := mul_pos hε h3
      nlinarith
    · rw [Finset.sum_add_distrib, ← Finset.mul_sum, ← Finset.mul_sum, w1, u1]; ring
    · simp only [add_smul, Finset.sum_add_distrib, mul_smul, ← Finset.smul_sum, w2, u2]
      rw [AffineMap.lineMap_apply_module]
      simp only [one_smul, Finset.sum_add_distrib, w2, neg_smul, Finset.sum_neg_distrib, ← Finset.smul_sum, u2]
      module

theorem openSimplex_nonempty {A : Finset E} (hA : A.Nonempty) : (openSimplex K A).Nonempty := by
  have hc : (0 : K) < A.card := by exact_mod_cast hA.card_pos
  refine ⟨_, fun _ => (A.card : K)⁻¹, fun a _ => by positivity, ?_, rfl⟩
  rw [Finset.sum_const, nsmul_eq_mul, mul_inv_cancel₀ hc.ne']

variable {I : Finset (Finset E)} (hp : Proper K I) (hi : ∀ T ∈ I, AffineIndependent K (fun x : T => (x : E)))
include hp hi

/-- faces of the simplices of a complex meet in faces -/
theorem Proper.meet {T T' A B : Finset E} (hT : T ∈ I) (hT' : T' ∈ I) (hA : A ⊆ T) (hB : B ⊆ T') :
    convexHull K (A : Set E) ∩ convexHull K (B : Set E) = convexHull K ((A : Set E) ∩ B) := by
  apply Set.Subset.antisymm
  · rintro x ⟨h1, h2⟩
    obtain ⟨C, hC, -, hx⟩ := exists_openFace h1
    have hCB := hp.open_inj hi hT hT' (hC.trans hA) hB hx h2
    have : (C : Set E) ⊆ (A : Set E) ∩ B := fun y hy => ⟨hC hy, hCB hy⟩
    exact convexHull_mono this (openSimplex_sub hx)
  · exact Set.subset_inter (convexHull_mono Set.inter_subset_left) (convexHull_mono Set.inter_subset_right)

theorem Proper.open_disj {T T' A B : Finset E} (hT : T ∈ I) (hT' : T' ∈ I) (hA : A ⊆ T) (hB : B ⊆ T') {x : E} (h1 : x ∈ openSimplex K A)
    (h2 : x ∈ openSimplex K B) : A = B :=
  Finset.Subset.antisymm (hp.open_inj hi hT hT' hA hB h1 (openSimplex_sub h2)) (hp.open_inj hi hT' hT hB hA h2 (openSimplex_sub h1))

end

/-! ## The set of the faces -/

section
variable {α K T U : Type} [Field K] [LinearOrder K] [IsStrictOrderedRing K] {S : OrdOps α} {v : α → K} {D n : Nat} {sp : Space} {c : Hull α}
  {P : Set (Fin D → K)}

theorem OrdOps.Models.faceSet (h : S.Models v) (hd : sp.dim = D + 1) {start l : List (Simplex α)} (hs : ∀ s ∈ start, s.Valid v D sp)
    (hn : (start.map (Simplex.verts v D)).Nodup) (hl : ∀ s ∈ l, s.Valid v D sp) :
    ∃ r, S.faceSet start l = some r ∧ (∀ s ∈ r, s.Valid v D sp) ∧ (r.map (Simplex.verts v D)).Nodup ∧
      ∀ A, A ∈ r.map (Simplex.verts v D) ↔ A ∈ start.map (Simplex.verts v D) ∨ ∃ s ∈ l, A ⊆ s.verts v D ∧ A.Nonempty := by
  let g : Simplex α → List (Simplex α) := fun s => (S.subSimplicesNotNull s).getD []
  have hg : ∀ s ∈ l, S.subSimplicesNotNull s = some (g s) ∧ (∀ t ∈ g s, t.Valid v D sp) ∧
      ∀ A, A ∈ (g s).map (Simplex.verts v D) ↔ A ⊆ s.verts v D ∧ A.Nonempty := by
    intro s hs
    obtain ⟨r, e1, e2, e3⟩ := h.facesNotNull hd (hl s hs)
    have : g s = r := by simp [g, e1]
    rw [this]; exact ⟨e1, e2, e3⟩
  have hmap : l.mapM S.subSimplicesNotNull = some (l.map g) := mapM_eq_map _ (fun s hs => (hg s hs).1)
  have hall : ∀ t ∈ (l.map g).flatten, t.Valid v D sp := by
    intro t ht
    obtain ⟨r, hr, ht⟩ := List.mem_flatten.1 ht
    obtain ⟨s, hs, rfl⟩ := List.mem_map.1 hr
    exact (hg s hs).2.1 t ht
  obtain ⟨r, r1, r2, r3, r4⟩ := hashInsert_fold (P := fun t : Simplex α => t.Valid v D sp) (key := Simplex.verts v D) (eq := S.simplexEq)
    (fun x y hx hy => h.simplexEq_verts hd hx hy) hall hs hn
  refine ⟨r, ?_, ?_, r3, fun A => ?_⟩
  · unfold OrdOps.faceSet
    simp only [hmap, Option.bind_eq_bind, Option.bind_some, r1]
  · intro t ht
    rcases r2 t ht with h1 | h1
    · exact hs t h1
    · exact hall t h1
  · rw [r4]
    apply or_congr Iff.rfl
    constructor
    · intro hA
      obtain ⟨t, ht, rfl⟩ := List.mem_map.1 hA
      obtain ⟨q, hq, ht⟩ := List.mem_flatten.1 ht
      obtain ⟨s, hs, rfl⟩ := List.mem_map.1 hq
      exact ⟨s, hs, ((hg s hs).2.2 _).1 (List.mem_map_of_mem ht)⟩
    · rintro ⟨s, hs, hA⟩
      obtain ⟨t, ht, rfl⟩ := List.mem_map.1 (((hg s hs).2.2 _).2 hA)
      exact List.mem_map_of_mem (List.mem_flatten.2 ⟨_, List.mem_map_of_mem hs, ht⟩)

/-- the facets are faces of the simplices of the interior -/
theorem HullOf.facet_face (hc : HullOf S v D c P) (h : S.Models v) {L F : List (Simplex α)} (hL : S.embeddedInterior c = some L)
    (hF : S.embeddedFacets c = some F) : ∀ s ∈ F, ∃ t ∈ L, s.verts v D ⊆ t.verts v D := by
  rcases hc with ⟨rfl, hc⟩ | ⟨n, f, l, hi⟩
  · unfold OrdOps.embeddedFacets at hF
    rw [hc.facets] at hF
    cases hF
    simp
  · obtain ⟨G, g1, g2⟩ := hi.embedded h (L := c.facets.map fun o => o.simplex) (by
      intro s hs
      obtain ⟨o, ho, rfl⟩ := List.mem_map.1 hs
      exact (hi.facets o ho).simplex)
    rw [List.mapM_map] at g1
    obtain ⟨G', g1', g2'⟩ := hi.embedded h hi.interior
    have e1 := hF.symm.trans g1
    have e2 := hL.symm.trans g1'
    cases e1
    cases e2
    intro s hs
    obtain ⟨s, hs', rfl⟩ := List.mem_map.1 hs
    obtain ⟨o, ho, rfl⟩ := List.mem_map.1 hs'
    obtain ⟨T, hT, i, hi', he⟩ := hi.hull.facet (F := o.simplex.verts v n) (mem_facs.2 ⟨o, ho, rfl⟩)
    obtain ⟨t, ht, rfl⟩ := mem_simps.1 hT
    refine ⟨G' t, List.mem_map_of_mem ht, ?_⟩
    rw [(g2 _ hs').2.1, (g2' t ht).2.1, ← he]
    exact Finset.image_subset_image (Finset.erase_subset _ _)

/-- a face of the triangulation of a hull -/
def Hull.Face (S : OrdOps α) (v : α → K) (D : Nat) (c : Hull α) (A : Finset (Fin D → K)) : Prop :=
  ∃ L, S.embeddedInterior c = some L ∧ ∃ s ∈ L, A ⊆ s.verts v D

theorem HullOf.dimEq (hc : HullOf S v D c P) : c.ambient.dim = D + 1 := by
  rcases hc with ⟨rfl, hc⟩ | ⟨n, f, l, hi⟩
  · exact hc.amb ▸ hc.sub.dim
  · exact hi.amb ▸ hi.sub.dim

theorem HullOf.ambEq (hc : HullOf S v D c P) : c.subspace.ambient = c.ambient := by
  rcases hc with ⟨rfl, hc⟩ | ⟨n, f, l, hi⟩
  · exact hc.amb
  · exact hi.amb

/-- what the complex of a hull is -/
structure ComplexOf (S : OrdOps α) (v : α → K) (D : Nat) (c : Hull α) (X : Set (Fin D → K)) (k : Cplx α IBLabel) : Prop where
  ambient : k.ambient = c.ambient
  valid : ∀ e ∈ k.labelled, e.1.Valid v D c.ambient ∧ e.1.points ≠ []
  nodup : (k.labelled.map fun e => e.1.verts v D).Nodup
  faces : ∀ A, A ∈ k.labelled.map (fun e => e.1.verts v D) ↔ A.Nonempty ∧ c.Face S v D A
  meet : ∀ e ∈ k.labelled, ∀ e' ∈ k.labelled, convexHull K (e.1.verts v D : Set (Fin D → K)) ∩ convexHull K (e'.1.verts v D : Set (Fin D → K)) =
    convexHull K ((e.1.verts v D : Set (Fin D → K)) ∩ e'.1.verts v D)
  disj : ∀ e ∈ k.labelled, ∀ e' ∈ k.labelled, ∀ x ∈ openSimplex K (e.1.verts v D), x ∈ openSimplex K (e'.1.verts v D) → e = e'
  sub : ∀ e ∈ k.labelled, convexHull K (e.1.verts v D : Set (Fin D → K)) ⊆ X
  cover : ∀ x ∈ X, ∃ e ∈ k.labelled, x ∈ openSimplex K (e.1.verts v D)
  boundary : ∀ e ∈ k.labelled, e.2 = .boundary → openSimplex K (e.1.verts v D) ⊆ relBoundary K X
  interior : ∀ e ∈ k.labelled, e.2 = .interior → openSimplex K (e.1.verts v D) ⊆ relInterior K X
  inv : ∀ e ∈ k.cells, (∀ t ∈ e.inv, t.Valid v D c.ambient) ∧ (e.inv.map (Simplex.verts v D)).Nodup ∧
    ∀ A, A ∈ e.inv.map (Simplex.verts v D) ↔ e.spx.verts v D ⊂ A ∧ c.Face S v D A

theorem HullOf.asComplex (hc : HullOf S v D c P) (h : S.Models v) {o : Oracle α} (ho : o.Fair) :
    ∃ k, S.asComplex o c = some k ∧ ComplexOf S v D c (convexHull K P) k := by
  have hd := hc.dimEq
  obtain ⟨L, l1, l2, l3, l4, l5⟩ := hc.interior h
  obtain ⟨F, f1, f2, f3, f4⟩ := hc.facets h
  have hff := hc.facet_face h l1 f1
  obtain ⟨B, b1, b2, b3, b4⟩ := h.faceSet hd (start := []) (by simp) (by simp) (fun s hs => (f2 s hs).1)
  have hperm := ho.simplices [0] B
  obtain ⟨A, a1, a2, a3, a4⟩ := h.faceSet hd (start := o.simplices [0] B) (fun s hs => b2 s (hperm.mem_iff.1 hs))
    ((hperm.map _).nodup_iff.2 b3) (fun s hs => (l2 s hs).1)
  have hface : ∀ X, c.Face S v D X ↔ ∃ s ∈ L, X ⊆ s.verts v D := by
    intro X
    unfold Hull.Face
    rw [l1]
    simp
  have hA : ∀ X, X ∈ A.map (Simplex.verts v D) ↔ X.Nonempty ∧ c.Face S v D X := by
    intro X
    rw [a4, (hperm.map _).mem_iff, b4, hface]
    constructor
    · rintro ((h1 | ⟨s, hs, h1, h2⟩) | ⟨s, hs, h1, h2⟩)
      · simp at h1
      · obtain ⟨t, ht, h3⟩ := hff s hs
        exact ⟨h2, t, ht, h1.trans h3⟩
      · exact ⟨h2, s, hs, h1⟩
    · rintro ⟨h2, s, hs, h1⟩
      exact .inr ⟨s, hs, h1, h2⟩
  have hpermA := ho.simplices [1] A
  set A' := o.simplices [1] A with hA'
  set g : Simplex α → Simplex α × IBLabel := fun s => (s, if s.verts v D ∈ B.map (Simplex.verts v D) then .boundary else .interior) with hg
  have hm : (A'.mapM fun s => do
      let b ← hashHas S.simplexEq s B
      some (s, if b then IBLabel.boundary else .interior)) = some (A'.map g) := by
    apply mapM_eq_map
    intro s hs
    have := hashHas_eq (P := fun t : Simplex α => t.Valid v D c.ambient) (key := Simplex.verts v D) (eq := S.simplexEq)
      (fun x y hx hy => h.simplexEq_verts hd hx hy) (a2 s (hpermA.mem_iff.1 hs)) b2
    simp only [this, Option.bind_eq_bind, Option.bind_some, decide_eq_true_eq, hg]
  have hkeys : ((A'.map g).map fun e => e.1.verts v D) = A'.map (Simplex.verts v D) := by rw [List.map_map]; rfl
  have hfst : (A'.map g).map Prod.fst = A' := by rw [List.map_map]; exact List.map_id A'
  have hmv : ∀ e ∈ A'.map g, e.1.Valid v D c.ambient := by
    intro e he
    obtain ⟨s, hs, rfl⟩ := List.mem_map.1 he
    exact a2 s (hpermA.mem_iff.1 hs)
  have hmn : ((A'.map g).map fun e => e.1.verts v D).Nodup := by
    rw [hkeys, (hpermA.map _).nodup_iff]; exact a3
  have hmk : ∀ X, X ∈ (A'.map g).map (fun e => e.1.verts v D) ↔ X.Nonempty ∧ c.Face S v D X := by
    intro X; rw [hkeys, (hpermA.map _).mem_iff, hA]
  have hne : ∀ e ∈ A'.map g, e.1.points ≠ [] := by
    intro e he h0
    have := ((hmk (e.1.verts v D)).1 (List.mem_map_of_mem (f := fun e : Simplex α × IBLabel => e.1.verts v D) he)).1
    rw [Simplex.verts, h0] at this
    simp [vertsOf] at this
  have hnew := h.newLabelled hd hmv hmn
  rw [if_neg (by rintro ⟨e, he, h0⟩; exact hne e he h0), if_pos (by
    intro s hs X hX hXn
    rw [hfst] at hs ⊢
    rw [← hkeys, hmk]
    obtain ⟨-, hf⟩ := (hmk (s.verts v D)).1 (by rw [hkeys]; exact List.mem_map_of_mem hs)
    rw [hface] at hf ⊢
    obtain ⟨t, ht, h1⟩ := hf
    exact ⟨hXn, t, ht, hX.trans h1⟩)] at hnew
  obtain ⟨k, k1, k2, k3, k4⟩ := hnew
  -- geometry
  set I : Finset (Finset (Fin D → K)) := (L.map (Simplex.verts v D)).toFinset with hI
  have hmI : ∀ T, T ∈ I ↔ ∃ s ∈ L, s.verts v D = T := by intro T; rw [hI, List.mem_toFinset, List.mem_map]
  have hind : ∀ T ∈ I, AffineIndependent K (fun x : T => (x : Fin D → K)) := by
    intro T hT
    obtain ⟨s, hs, rfl⟩ := (hmI T).1 hT
    exact (l2 s hs).1.points.verts_indep
  have hprop : Proper K I := by
    intro T hT T' hT' x h1 h2
    obtain ⟨s, hs, rfl⟩ := (hmI T).1 hT
    obtain ⟨t, ht, rfl⟩ := (hmI T').1 hT'
    have := l5 s hs t ht
    rw [pointSet_verts, pointSet_verts] at this
    rw [Finset.coe_inter, ← this]
    exact ⟨h1, h2⟩
  have hcell : ∀ e ∈ A'.map g, ∃ T ∈ I, e.1.verts v D ⊆ T := by
    intro e he
    obtain ⟨-, hf⟩ := (hmk (e.1.verts v D)).1 (List.mem_map_of_mem (f := fun e : Simplex α × IBLabel => e.1.verts v D) he)
    obtain ⟨t, ht, h1⟩ := (hface _).1 hf
    exact ⟨_, (hmI _).2 ⟨t, ht, rfl⟩, h1⟩
  have hsub : ∀ e ∈ A'.map g, convexHull K (e.1.verts v D : Set (Fin D → K)) ⊆ convexHull K P := by
    intro e he x hx
    obtain ⟨T, hT, h1⟩ := hcell e he
    obtain ⟨s, hs, rfl⟩ := (hmI T).1 hT
    rw [← l4]
    simp only [Set.mem_iUnion, exists_prop]
    refine ⟨s, hs, ?_⟩
    rw [pointSet_verts]
    have h2 : ((e.1.verts v D : Finset _) : Set (Fin D → K)) ⊆ s.verts v D := h1
    exact convexHull_mono h2 hx
  have hlab : ∀ e ∈ A'.map g, e.2 = .boundary ↔ ∃ s ∈ F, e.1.verts v D ⊆ s.verts v D := by
    intro e he
    have hn : (e.1.verts v D).Nonempty := ((hmk (e.1.verts v D)).1 (List.mem_map_of_mem (f := fun e : Simplex α × IBLabel => e.1.verts v D) he)).1
    obtain ⟨s, hs, rfl⟩ := List.mem_map.1 he
    simp only [hg]
    have hb : s.verts v D ∈ B.map (Simplex.verts v D) ↔ ∃ t ∈ F, s.verts v D ⊆ t.verts v D := by
      rw [b4]
      constructor
      · rintro (h1 | ⟨t, ht, h1, -⟩)
        · simp at h1
        · exact ⟨t, ht, h1⟩
      · rintro ⟨t, ht, h1⟩
        exact .inr ⟨t, ht, h1, hn⟩
    by_cases hh : s.verts v D ∈ B.map (Simplex.verts v D)
    · rw [if_pos hh]; exact ⟨fun _ => hb.1 hh, fun _ => rfl⟩
    · rw [if_neg hh]; exact ⟨fun h => (by cases h), fun h => absurd (hb.2 h) hh⟩
  refine ⟨k, ?_, ⟨k2, ?_, ?_, ?_, ?_, ?_, k3 ▸ hsub, ?_, ?_, ?_, ?_⟩⟩
  · unfold OrdOps.asComplex
    rw [hc.ambEq]
    simp only [f1, b1, l1, a1, Option.bind_eq_bind, Option.bind_some, ← hA'] at hm ⊢
    rw [hm]
    simp only [Option.bind_some, k1, Except.toOption]
  · rw [k3]; exact fun e he => ⟨hmv e he, hne e he⟩
  · rw [k3]; exact hmn
  · rw [k3]; exact hmk
  · rw [k3]
    intro e he e' he'
    obtain ⟨T, hT, h1⟩ := hcell e he
    obtain ⟨T', hT', h1'⟩ := hcell e' he'
    exact hprop.meet hind hT hT' h1 h1'
  · rw [k3]
    intro e he e' he' x hx hx'
    obtain ⟨T, hT, h1⟩ := hcell e he
    obtain ⟨T', hT', h1'⟩ := hcell e' he'
    exact List.inj_on_of_nodup_map hmn he he' (hprop.open_disj hind hT hT' h1 h1' hx hx')
  · rw [k3]
    intro x hx
    rw [← l4] at hx
    simp only [Set.mem_iUnion, exists_prop] at hx
    obtain ⟨s, hs, hx⟩ := hx
    rw [pointSet_verts] at hx
    obtain ⟨C, hC, hCn, hx⟩ := exists_openFace hx
    obtain ⟨e, he, rfl⟩ := List.mem_map.1 ((hmk C).2 ⟨hCn, (hface C).2 ⟨s, hs, hC⟩⟩)
    exact ⟨e, he, hx⟩
  · rw [k3]
    intro e he hl x hx
    obtain ⟨s, hs, h1⟩ := (hlab e he).1 hl
    rw [← f4]
    simp only [Set.mem_iUnion, exists_prop]
    refine ⟨s, hs, ?_⟩
    rw [pointSet_verts]
    have h2 : ((e.1.verts v D : Finset _) : Set (Fin D → K)) ⊆ s.verts v D := h1
    exact convexHull_mono h2 (openSimplex_sub hx)
  · rw [k3]
    intro e he hl x hx
    by_contra hn
    have hb : x ∈ relBoundary K (convexHull K P) := ⟨hsub e he (openSimplex_sub hx), hn⟩
    rw [← f4] at hb
    simp only [Set.mem_iUnion, exists_prop] at hb
    obtain ⟨s, hs, hb⟩ := hb
    rw [pointSet_verts] at hb
    obtain ⟨T, hT, h1⟩ := hcell e he
    obtain ⟨t, ht, h3⟩ := hff s hs
    have := (hlab e he).2 ⟨s, hs, hprop.open_inj hind hT ((hmI _).2 ⟨t, ht, rfl⟩) h1 h3 hx hb⟩
    rw [this] at hl
    cases hl
  · intro e he
    obtain ⟨x1, x2, x3⟩ := k4 e he
    refine ⟨x1, x2, fun X => ?_⟩
    rw [x3]
    apply and_congr_right
    intro hX
    have : (∃ a ∈ A'.map g, a.1.verts v D = X) ↔ X ∈ (A'.map g).map (fun e => e.1.verts v D) := by rw [List.mem_map]
    rw [this, hmk]
    exact ⟨fun h => h.2, fun h => ⟨Finset.nonempty_iff_ne_empty.2 fun h0 => by subst h0; exact hX.2 (Finset.empty_subset _), h⟩⟩

end

end Verif.Geometry
