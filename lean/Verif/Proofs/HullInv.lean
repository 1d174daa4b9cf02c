import Verif.Proofs.HullVerts

/-! # The invariant of the convex hull, and the checks the code makes -/

namespace Verif.Geometry

open Classical Verif.Rings

noncomputable local instance (priority := 5000) decPt2 (K : Type) (d : Nat) : DecidableEq (Fin d → K) := fun a b => Classical.propDecidable (a = b)

section
variable {α K : Type} [Field K] [LinearOrder K] [IsStrictOrderedRing K]

/-- `f` is the map `embed_point` computes -/
structure EmbSub.Map (S : OrdOps α) (v : α → K) (D n : Nat) (e : EmbSub α) (f : (Fin n → K) →ᵃ[K] (Fin D → K)) : Prop where
  inj : Function.Injective f
  range : Set.range f = affineSpan K (pointSet v D e.points)
  zero : ∀ hi : 0 < e.points.length, f 0 = e.points[0].val v D
  unit : ∀ (i : Fin n) (hi : (i : Nat) + 1 < e.points.length), f (Pi.single i 1) = e.points[(i : Nat) + 1].val v D
  embed : ∀ pt : Vec α, pt.In e.embedded → ∃ q, S.embedPoint e pt = some q ∧ q.In e.ambient ∧ q.val v D = f (pt.val v n)
  unembed : ∀ pt : Vec α, pt.In e.ambient →
    (∃ q, S.unembedPoint e pt = some (some q) ∧ q.In e.embedded ∧ f (q.val v n) = pt.val v D) ∨
    (S.unembedPoint e pt = some none ∧ pt.val v D ∉ affineSpan K (pointSet v D e.points))

/-- `A` is the function whose sign is the side of the facet (the constant 1 for the empty facet) -/
def OSimplex.Fits (S : OrdOps α) (v : α → K) (d : Nat) (sp : Space) (o : OSimplex α) (A : (Fin d → K) →ᵃ[K] K) : Prop :=
  (d = 0 → ∀ x, A x = 1) ∧ (d ≠ 0 → ∀ x : Vec α, x.In sp → ∃ y, S.classifyQuant o x = some y ∧ v y = A (x.val v d))

/-- the vertex sets of the interior simplices -/
noncomputable def Hull.simps (v : α → K) (n : Nat) (c : Hull α) : Finset (Finset (Fin n → K)) := (c.interior.map (Simplex.verts v n)).toFinset

/-- the vertex sets of the facets -/
noncomputable def Hull.facs (v : α → K) (n : Nat) (c : Hull α) : Finset (Finset (Fin n → K)) := (c.facets.map fun o => o.simplex.verts v n).toFinset

/-- the invariant of a convex hull of the set `P` that is not empty and has dimension `n` -/
structure HullInv (S : OrdOps α) (v : α → K) (D n : Nat) (c : Hull α) (P : Set (Fin D → K)) (f : (Fin n → K) →ᵃ[K] (Fin D → K))
    (l : Finset (Fin n → K) → (Fin n → K) →ᵃ[K] K) : Prop where
  sub : c.subspace.Valid v D
  amb : c.subspace.ambient = c.ambient
  len : c.subspace.points.length = n + 1
  map : c.subspace.Map S v D n f
  facets : ∀ o ∈ c.facets, o.Valid S v n c.subspace.embedded
  interior : ∀ s ∈ c.interior, s.Valid v n c.subspace.embedded
  nodup : (c.facets.map fun o => o.simplex.verts v n).Nodup
  nodupI : (c.interior.map (Simplex.verts v n)).Nodup
  single : n = 0 → c.interior.length = 1
  hull : IsHull (c.simps v n) (c.facs v n) l
  proper : Proper K (c.simps v n)
  fits : ∀ o ∈ c.facets, o.Fits S v n c.subspace.embedded (l (o.simplex.verts v n))
  verts : ∀ T ∈ c.simps v n, ∀ x ∈ T, f x ∈ P
  conv : P ⊆ convexHull K (f '' {x | ∃ T ∈ c.simps v n, x ∈ T})

variable {S : OrdOps α} {v : α → K} {d D n : Nat} {sp : Space} (h : S.Models v)
include h

theorem EmbSub.Valid.map {e : EmbSub α} (he : e.Valid v D) (hn : e.points.length = n + 1) : ∃ f, e.Map S v D n f := by
  obtain ⟨f, h1, h2, h3, h4, h5, h6⟩ := he.embed h hn
  exact ⟨f, h1, h2, fun _ => h3, fun i _ => h4 i, h5, h6⟩

theorem OSimplex.Valid.fits {o : OSimplex α} (hd : sp.dim = d + 1) (ho : o.Valid S v d sp) : ∃ A, o.Fits S v d sp A ∧
    (∀ x ∈ o.simplex.verts v d, A x = 0) ∧ (∃ x, A x ≠ 0) ∧ (∀ f r, o.orientation = some (f, r) → 0 < A (r.val v d)) := by
  by_cases h0 : d = 0
  · refine ⟨AffineMap.const K _ 1, ⟨fun _ x => rfl, fun hh => absurd h0 hh⟩, ?_, ⟨0, one_ne_zero⟩, fun f r hr => ?_⟩
    · intro x hx
      obtain ⟨p, hp, -⟩ := mem_vertsOf.1 hx
      rw [List.length_eq_zero_iff.1 (ho.length.trans h0)] at hp
      simp at hp
    · rw [ho.empty.2 h0] at hr; cases hr
  · obtain ⟨⟨f, r⟩, hr⟩ := Option.ne_none_iff_exists'.1 (fun hh => h0 (ho.empty.1 hh))
    obtain ⟨L, p0, h1, h2, h3, h4, h5, -⟩ := ho.functional h hd hr
    have hA : ∀ x, (L.toAffineMap - AffineMap.const K _ (L (p0.val v d)) : (Fin d → K) →ᵃ[K] K) x = L (x - p0.val v d) := by
      intro x; rw [map_sub]; rfl
    refine ⟨L.toAffineMap - AffineMap.const K _ (L (p0.val v d)), ⟨fun hh => absurd hh h0, fun _ x hx => ?_⟩, ?_, ⟨r.val v d, ?_⟩, ?_⟩
    · obtain ⟨y, y1, y2⟩ := h5 x hx
      exact ⟨y, y1, by rw [y2, hA]⟩
    · intro x hx
      rw [hA, ← mem_iff_functional h2 h3]
      apply subset_affineSpan
      rw [← coe_vertsOf]; exact hx
    · rw [hA]; exact h4.ne'
    · intro f' r' hr'
      rw [hr] at hr'
      cases hr'
      rw [hA]; exact h4

theorem OSimplex.Fits.classify {o : OSimplex α} (ho : o.Valid S v d sp) {A : (Fin d → K) →ᵃ[K] K} (hA : o.Fits S v d sp A) {x : Vec α} (hx : x.In sp) :
    ∃ side, S.classify o x = some side ∧ (side = .negative ↔ A (x.val v d) < 0) ∧
      (d ≠ 0 → (side = .positive ↔ 0 < A (x.val v d)) ∧ (side = .neutral ↔ A (x.val v d) = 0)) := by
  by_cases h0 : d = 0
  · refine ⟨.neutral, ?_, ?_, fun hh => absurd h0 hh⟩
    · unfold OrdOps.classify OrdOps.classifyQuant
      rw [ho.empty.2 h0]
      simp only [Option.map_some, Option.some.injEq]
      exact (h.sideOf S.zero).2.1.2 h.toDomain.toRing.toSemi.zero
    · rw [hA.1 h0]; simp
  · obtain ⟨y, y1, y2⟩ := hA.2 h0 x hx
    have hs := h.sideOf y
    rw [y2] at hs
    exact ⟨S.sideOf y, by unfold OrdOps.classify; rw [y1]; rfl, hs.2.2, fun _ => ⟨hs.1, hs.2.1⟩⟩

end

section
variable {K E : Type} [Field K] [LinearOrder K] [IsStrictOrderedRing K] [AddCommGroup E] [Module K E] [FiniteDimensional K E]
variable {I Fc : Finset (Finset E)} {l : Finset E → E →ᵃ[K] K} (h : IsHull I Fc l)
include h

theorem IsHull.facets_nonempty : Fc.Nonempty := by
  by_cases hn : Module.finrank K E = 0
  · have hs : Subsingleton E := Module.finrank_zero_iff.1 hn
    obtain ⟨T, hT⟩ := h.nonempty
    have hTc : ∀ T ∈ I, T = {0} := by
      intro T hT
      obtain ⟨a, rfl⟩ := Finset.card_eq_one.1 (by rw [(h.full T hT).card, hn])
      rw [Subsingleton.elim a 0]
    refine ⟨∅, (h.chain ∅).2 ?_⟩
    have : I.filter (IsFace ∅) = {{0}} := by
      ext T'
      rw [Finset.mem_filter, Finset.mem_singleton]
      constructor
      · exact fun hh => hTc T' hh.1
      · rintro rfl
        exact ⟨hTc T hT ▸ hT, 0, by simp, by simp⟩
    rw [this]; simp
  · have : Nontrivial E := Module.nontrivial_of_finrank_pos (R := K) (Nat.pos_of_ne_zero hn)
    obtain ⟨u, hu⟩ := exists_ne (0 : E)
    obtain ⟨t, -, ht⟩ := h.bounded hu
    by_contra hne
    rw [Finset.not_nonempty_iff_eq_empty] at hne
    obtain ⟨T, hT, hx⟩ := h.complete (x := AffineMap.lineMap u 0 t) (by rw [hne]; simp)
    exact ht T hT hx

/-- the hull as a set -/
theorem IsHull.region (x : E) : (∀ F ∈ Fc, 0 ≤ l F x) ↔ ∃ T ∈ I, x ∈ convexHull K (T : Set E) := by
  constructor
  · exact h.complete
  · rintro ⟨T, hT, hx⟩ F hF
    exact nonneg_conv hx (fun y hy => h.nonneg F hF T hT y hy)

theorem IsHull.region_conv (x : E) : (∃ T ∈ I, x ∈ convexHull K (T : Set E)) ↔ x ∈ convexHull K {y | ∃ T ∈ I, y ∈ T} := by
  constructor
  · rintro ⟨T, hT, hx⟩
    have hsub : (T : Set E) ⊆ {y | ∃ T ∈ I, y ∈ T} := fun y hy => ⟨T, hT, hy⟩
    exact convexHull_mono hsub hx
  · intro hx
    rw [← h.region]
    intro F hF
    refine nonneg_conv hx ?_
    rintro y ⟨T, hT, hy⟩
    exact h.nonneg F hF T hT y hy

end

end Verif.Geometry
