import Verif.Proofs.HullCut

/-! # The intersection of two hulls -/

namespace Verif.Geometry

open Classical Verif.Rings

noncomputable local instance (priority := 5000) decPt11 (K : Type) (d : Nat) : DecidableEq (Fin d → K) := fun a b => Classical.propDecidable (a = b)

section
variable {α K : Type} [Field K] [LinearOrder K] [IsStrictOrderedRing K]
variable {S : OrdOps α} {v : α → K} {D n : Nat} {sp : Space} {c : Hull α} {P : Set (Fin D → K)}

theorem HullOf.half (hc : HullOf S v D c P) (h : S.Models v) {o : Oracle α} (ho : o.Fair) {hyp : OSimplex α} (hv : hyp.Valid S v D c.ambient)
    {A : (Fin D → K) →ᵃ[K] K} (hA : hyp.SideFun S v D c.ambient A) (hA0 : ∀ x, x ∈ hyp.simplex.span v D → A x = 0) (region : Side) :
    ∃ c' P', S.hullHalf o c hyp region = some c' ∧ HullOf S v D c' P' ∧ convexHull K P' = convexHull K P ∩ region.region A ∧ c'.ambient = c.ambient := by
  obtain ⟨w, w1, w2, w3⟩ := hc.wireframe h (ho.sub 0)
  obtain ⟨w', u1, u2, u3⟩ := w2.intersect h (ho.sub 1) (w3 ▸ hv) (w3 ▸ hA) hA0 region
  obtain ⟨c', t1, t2, t3⟩ := h.hullNew (ho.sub 2) u2.dim u2.points
  refine ⟨c', _, ?_, t2, u2.sec.hull, t3.trans (u3.trans w3)⟩
  unfold OrdOps.hullHalf
  simp only [w1, u1, Option.bind_eq_bind, Option.bind_some]
  exact t1

theorem HullOf.halfLoop (h : S.Models v) {o : Oracle α} (ho : o.Fair) (hD : sp.dim = D + 1) (h0 : D ≠ 0) {hs : List (OSimplex α)} :
    ∀ {i : Nat} {c : Hull α} {P : Set (Fin D → K)} (_ : HullOf S v D c P) (_ : c.ambient = sp) (_ : ∀ o ∈ hs, o.Valid S v D sp),
      ∃ c' P', S.halfLoop o i c hs = some c' ∧ HullOf S v D c' P' ∧ convexHull K P' = convexHull K P ∩ {x | ∀ o ∈ hs, x ∈ o.simplex.span v D} ∧ c'.ambient = sp := by
  induction hs with
  | nil =>
    intro i c P hc ha _
    exact ⟨c, P, rfl, hc, by simp, ha⟩
  | cons hyp hs ih =>
    intro i c P hc ha hv
    have hv0 := hv hyp (by simp)
    obtain ⟨A, A1, A2, A3, -⟩ := hv0.sideFun h hD
    obtain ⟨c1, P1, s1, s2, s3, s4⟩ := hc.half h (ho.sub i) (ha ▸ hv0) (ha ▸ A1) A2 .neutral
    obtain ⟨c2, P2, t1, t2, t3, t4⟩ := ih (i := i + 1) s2 (s4.trans ha) (fun o ho => hv o (by simp [ho]))
    refine ⟨c2, P2, ?_, t2, ?_, t4⟩
    · show (S.hullHalf (o.sub i) c hyp .neutral).bind _ = _
      rw [s1]; exact t1
    · rw [t3, s3, Set.inter_assoc]
      congr 1
      ext x
      simp only [Side.region, Set.mem_inter_iff, Set.mem_setOf_eq, List.mem_cons, forall_eq_or_imp]
      exact and_congr_left fun _ => ⟨A3 h0 x, A2 x⟩

theorem WireOf.loop (h : S.Models v) {o : Oracle α} (ho : o.Fair) {R : OSimplex α → (Fin D → K) → Prop} {fs : List (OSimplex α)} :
    ∀ {i : Nat} {w : Wireframe α} {X : Set (Fin D → K)} (_ : WireOf v D w X)
      (_ : ∀ f ∈ fs, f.Valid S v D w.ambient ∧ ∃ A : (Fin D → K) →ᵃ[K] K, f.SideFun S v D w.ambient A ∧ (∀ x, x ∈ f.simplex.span v D → A x = 0) ∧ ∀ x, 0 ≤ A x ↔ R f x),
      ∃ w', S.wireLoop o i w fs = some w' ∧ WireOf v D w' (X ∩ {x | ∀ f ∈ fs, R f x}) ∧ w'.ambient = w.ambient := by
  induction fs with
  | nil =>
    intro i w X hw _
    exact ⟨w, rfl, by simpa using hw, rfl⟩
  | cons f fs ih =>
    intro i w X hw hf
    obtain ⟨f1, A, f2, f3, f4⟩ := hf f (by simp)
    obtain ⟨w1, s1, s2, s3⟩ := hw.intersect h (ho.sub i) f1 f2 f3 .positive
    obtain ⟨w2, t1, t2, t3⟩ := ih (i := i + 1) s2 (fun f' hf' => by rw [s3]; exact hf f' (by simp [hf']))
    refine ⟨w2, ?_, ?_, t3.trans s3⟩
    · show (S.wireIntersect (o.sub i) w f .positive).bind _ = _
      rw [s1]; exact t1
    · have : X ∩ {x | ∀ g ∈ f :: fs, R g x} = X ∩ Side.positive.region A ∩ {x | ∀ g ∈ fs, R g x} := by
        rw [Set.inter_assoc]
        congr 1
        ext x
        simp only [Side.region, Set.mem_inter_iff, Set.mem_setOf_eq, List.mem_cons, forall_eq_or_imp, f4]
      rw [this]; exact t2

theorem HullOf.isNull (hc : HullOf S v D c P) : c.subspace.embedded.dim = 0 ↔ P = ∅ := by
  rcases hc with ⟨h1, h2⟩ | ⟨n, f, l, hi⟩
  · exact ⟨fun _ => h1, fun _ => h2.dim⟩
  · rw [hi.dim]
    exact ⟨fun hh => by omega, fun hh => absurd hh hi.nonempty.ne_empty⟩

theorem HullOf.dim (hc : HullOf S v D c P) : c.subspace.embedded.dim = if P = ∅ then 0 else Module.finrank K (vectorSpan K P) + 1 := by
  rcases hc with ⟨h1, h2⟩ | ⟨n, f, l, hi⟩
  · rw [if_pos h1]; exact h2.dim
  · rw [if_neg hi.nonempty.ne_empty, hi.dim, hi.finrank]

theorem HullOf.subAmb (hc : HullOf S v D c P) : c.subspace.ambient = c.ambient := by
  rcases hc with ⟨h1, h2⟩ | ⟨n, f, l, hi⟩
  · exact h2.amb
  · exact hi.amb

theorem HullOf.ambDim (hc : HullOf S v D c P) : c.ambient.dim = D + 1 := by
  rcases hc with ⟨h1, h2⟩ | ⟨n, f, l, hi⟩
  · rw [← h2.amb]; exact h2.sub.dim
  · rw [← hi.amb]; exact hi.sub.dim

/-- the facets of a hull bound it -/
theorem HullInv.facetSide {f : (Fin n → K) →ᵃ[K] (Fin D → K)} {l : Finset (Fin n → K) → (Fin n → K) →ᵃ[K] K} (hi : HullInv S v D n c P f l) (h : S.Models v) {o : OSimplex α} (ho : o ∈ c.facets) :
    o.Valid S v n c.subspace.embedded ∧ ∃ A : (Fin n → K) →ᵃ[K] K, o.SideFun S v n c.subspace.embedded A ∧ (∀ x, x ∈ o.simplex.span v n → A x = 0) ∧
      ∀ x, 0 ≤ A x ↔ 0 ≤ l (o.simplex.verts v n) x := by
  have hv := hi.facets o ho
  refine ⟨hv, ?_⟩
  have hfit := hi.fits o ho
  by_cases h0 : n = 0
  · obtain ⟨A, A1, A2, -, A4⟩ := hv.sideFun h hi.dim
    refine ⟨A, A1, A2, fun x => ?_⟩
    rw [A4 h0 x, hfit.1 h0 x]
    simp
  · refine ⟨_, hfit.2 h0, ?_, fun x => Iff.rfl⟩
    intro x hx
    have hF : o.simplex.verts v n ∈ c.facs v n := mem_facs.2 ⟨o, ho, rfl⟩
    have hle : o.simplex.span v n ≤ (affineSpan K {(0 : K)}).comap (l (o.simplex.verts v n)) := by
      unfold Simplex.span
      rw [affineSpan_le, ← coe_vertsOf]
      intro y hy
      have := hi.hull.zero _ hF y hy
      show l _ y ∈ affineSpan K {(0 : K)}
      rw [this]; exact mem_affineSpan K rfl
    have := hle hx
    simpa using this

theorem HullOf.intersect (hc : HullOf S v D c P) {other : Hull α} {Q : Set (Fin D → K)} (hq : HullOf S v D other Q) (hamb : other.ambient = c.ambient) (h : S.Models v)
    {o : Oracle α} (ho : o.Fair) :
    ∃ c' P', S.hullIntersect o c other = some c' ∧ HullOf S v D c' P' ∧ convexHull K P' = convexHull K P ∩ convexHull K Q ∧ c'.ambient = c.ambient := by
  have hD := hc.ambDim
  have hsub : (decide (c.subspace.ambient = other.subspace.ambient)) = true := by
    rw [hc.subAmb, hq.subAmb, hamb]; simp
  rcases hq with ⟨rfl, hq⟩ | ⟨n, f, l, hi⟩
  · obtain ⟨c', t1, t2, t3⟩ := hullEmpty_null (S := S) (v := v) (D := D) (o.sub 0) hD
    refine ⟨c', ∅, ?_, .inl ⟨rfl, t2⟩, by simp, t3⟩
    have e1 : S.asHyperplanes other.subspace = some none := by
      unfold OrdOps.asHyperplanes OrdOps.rootAndSpan
      rw [hq.points]; rfl
    unfold OrdOps.hullIntersect
    rw [hsub]
    simp only [e1, assertThat, if_true, Option.bind_eq_bind, Option.bind_some]
    exact t1
  obtain ⟨hs, s1, s2, s3, s4⟩ := hi.sub.asHyperplanes h hi.len
  rw [hi.amb, hamb] at s3
  have hspan : (affineSpan K (pointSet v D other.subspace.points) : Set (Fin D → K)) = Set.range f := hi.map.range.symm
  have hsub' : other.subspace.ambient = c.ambient := hi.amb.trans hamb
  -- step 1
  have step1 : ∃ c1 P1, S.halfLoop (o.sub 1) 0 c hs = some c1 ∧ HullOf S v D c1 P1 ∧ convexHull K P1 = convexHull K P ∩ Set.range f ∧ c1.ambient = c.ambient := by
    have hrange : Set.range f = {x | ∀ o ∈ hs, x ∈ o.simplex.span v D} := by
      rw [← hspan]; ext x; exact s4 x
    rw [hrange]
    by_cases h0 : D = 0
    · have : hs = [] := List.length_eq_zero_iff.1 (by omega)
      subst this
      exact ⟨c, P, rfl, hc, by simp, rfl⟩
    · exact HullOf.halfLoop h (ho.sub 1) hD h0 hc rfl s3
  obtain ⟨c1, P1, t1, t2, t3, t4⟩ := step1
  obtain ⟨dp, d1, d2, d3, d4, d5⟩ := t2.definingPoints h (ho.sub 2)
  haveI : Nonempty (Vec α) := ⟨⟨⟨0, 0⟩, []⟩⟩
  obtain ⟨G, G1, G2⟩ := mapM_choose (L := dp) (f := fun p => (S.unembedPoint other.subspace p).bind id) (Q := fun p q => q.In other.subspace.embedded ∧ f (q.val v n) = p.val v D) (by
    intro p hp
    rcases hi.map.unembed p (by rw [hsub', ← t4]; exact d2 p hp) with ⟨q, q1, q2, q3⟩ | ⟨-, q2⟩
    · exact ⟨q, by rw [q1]; rfl, q2, q3⟩
    · exfalso
      apply q2
      have h1 : p.val v D ∈ convexHull K P1 := subset_convexHull K _ (d4 ⟨p, hp, rfl⟩)
      rw [t3, ← hspan] at h1
      exact h1.2)
  have hus : ∀ q ∈ dp.map G, q.In other.subspace.embedded := by
    intro q hq
    obtain ⟨p, hp, rfl⟩ := List.mem_map.1 hq
    exact (G2 p hp).1
  have himg : f '' pointSet v n (dp.map G) = pointSet v D dp := by
    ext x
    constructor
    · rintro ⟨_, ⟨q, hq, rfl⟩, rfl⟩
      obtain ⟨p, hp, rfl⟩ := List.mem_map.1 hq
      exact ⟨p, hp, (G2 p hp).2.symm⟩
    · rintro ⟨p, hp, rfl⟩
      exact ⟨_, ⟨G p, List.mem_map.2 ⟨p, hp, rfl⟩, rfl⟩, (G2 p hp).2⟩
  obtain ⟨c2, u1, u2, u3⟩ := h.hullNew (ho.sub 3) hi.dim hus
  have hdim : c2.subspace.embedded.dim = c1.subspace.embedded.dim := by
    rw [u2.dim, t2.dim]
    have e1 : pointSet v n (dp.map G) = ∅ ↔ P1 = ∅ := by
      rw [← Set.image_eq_empty (f := f), himg, ← convexHull_eq_empty (𝕜 := K), d5, convexHull_eq_empty]
    have e2 : Module.finrank K (vectorSpan K (pointSet v n (dp.map G))) = Module.finrank K (vectorSpan K P1) := by
      have e3 : vectorSpan K P1 = (vectorSpan K (pointSet v n (dp.map G))).map f.linear := by
        rw [AffineMap.vectorSpan_image_eq_submodule_map, himg, ← direction_affineSpan, ← affineSpan_convexHull (𝕜 := K) P1, ← d5, affineSpan_convexHull, direction_affineSpan]
      rw [e3]
      exact (LinearEquiv.finrank_eq (Submodule.equivMapOfInjective _ ((AffineMap.linear_injective_iff f).2 hi.map.inj) _))
    by_cases hP : P1 = ∅
    · rw [if_pos hP, if_pos (e1.2 hP)]
    · rw [if_neg hP, if_neg (fun hh => hP (e1.1 hh)), e2]
  obtain ⟨w, w1, w2, w3⟩ := u2.wireframe h (ho.sub 4)
  rw [u3] at w3
  obtain ⟨w', x1, x2, x3⟩ := w2.loop h (ho.sub 5) (i := 0) (R := fun o x => 0 ≤ l (o.simplex.verts v n) x) (fs := other.facets) (fun o ho => by
    rw [w3]; exact hi.facetSide h ho)
  obtain ⟨c3, y1, y2, y3⟩ := h.hullNew (ho.sub 6) x2.dim x2.points
  obtain ⟨dq, z1, z2, -, z3, z4⟩ := y2.definingPoints h (ho.sub 7)
  obtain ⟨es, f1, -, f2, -, f3⟩ := hi.map.embedAll (pts := dq) (fun p hp => by
    have := z2 p hp
    rw [y3, x3, w3] at this; exact this)
  have hes : pointSet v D es = f '' pointSet v n dq := by
    ext x
    rw [pointSet_iff, f3]
    constructor
    · intro hx
      obtain ⟨p, hp, rfl⟩ := List.mem_map.1 hx
      exact ⟨_, ⟨p, hp, rfl⟩, rfl⟩
    · rintro ⟨_, ⟨p, hp, rfl⟩, rfl⟩
      exact List.mem_map.2 ⟨p, hp, rfl⟩
  obtain ⟨c4, g1, g2, g3⟩ := h.hullNew (ho.sub 8) (sp := c1.subspace.ambient) (by rw [t2.subAmb, t4]; exact hD) (pts := es) (fun p hp => by
    rw [t2.subAmb, t4, ← hsub']; exact f2 p hp)
  refine ⟨c4, _, ?_, g2, ?_, g3.trans (t2.subAmb.trans t4)⟩
  · unfold OrdOps.hullIntersect
    have z0 : S.wireHull (o.sub 6) w' = some c3 := y1
    rw [hsub]
    simp only [s1, t1, d1, u1, assertThat, if_true, Option.bind_eq_bind, Option.bind_some]
    rw [G1]
    simp only [Option.bind_some, u1, hdim, w1, x1, z0, z1, f1, assertThat, beq_self_eq_true, if_true]
    exact g1
  · have hfac : {x | ∀ g ∈ other.facets, 0 ≤ l (g.simplex.verts v n) x} = {x | ∀ F ∈ other.facs v n, 0 ≤ l F x} := by
      ext x
      constructor
      · intro hx F hF
        obtain ⟨o, ho, rfl⟩ := mem_facs.1 hF
        exact hx o ho
      · intro hx o ho
        exact hx _ (mem_facs.2 ⟨o, ho, rfl⟩)
    have hsec := x2.sec.hull
    rw [hfac] at hsec
    rw [hes, ← AffineMap.image_convexHull, z4, hsec, Set.image_inter hi.map.inj, AffineMap.image_convexHull, himg, d5, t3, ← hi.region]
    rw [Set.inter_assoc]
    congr 1
    apply Set.inter_eq_right.2
    rw [hi.region]
    exact Set.image_subset_range _ _

end

end Verif.Geometry
