import Verif.Proofs.HullOutside
import Verif.Spec.ConvexHull

/-! # The convex hull of a list of points -/

namespace Verif.Geometry

open Classical Verif.Rings

noncomputable local instance (priority := 5000) decPt7 (K : Type) (d : Nat) : DecidableEq (Fin d → K) := fun a b => Classical.propDecidable (a = b)

theorem Oracle.Fair.sub {α : Type} {o : Oracle α} (h : o.Fair) (k : Nat) : (o.sub k).Fair :=
  ⟨fun p => h.ridges (k :: p), fun p => h.points (k :: p), fun p => h.simplices (k :: p), fun p => h.edges (k :: p)⟩

section
variable {α K : Type} [Field K] [LinearOrder K] [IsStrictOrderedRing K]

/-- the hull of no points -/
structure HullNull (v : α → K) (D : Nat) (c : Hull α) : Prop where
  sub : c.subspace.Valid v D
  amb : c.subspace.ambient = c.ambient
  points : c.subspace.points = []
  facets : c.facets = []
  interior : c.interior = [⟨c.subspace.embedded, []⟩]

/-- `c` is the hull of the set `P` -/
def HullOf (S : OrdOps α) (v : α → K) (D : Nat) (c : Hull α) (P : Set (Fin D → K)) : Prop :=
  (P = ∅ ∧ HullNull v D c) ∨ ∃ n f l, HullInv S v D n c P f l

variable {S : OrdOps α} {v : α → K} {D n : Nat} {sp : Space} {c : Hull α} {P : Set (Fin D → K)}

omit [LinearOrder K] [IsStrictOrderedRing K] in
theorem HullNull.dim (hc : HullNull v D c) : c.subspace.embedded.dim = 0 := by
  rw [hc.sub.embedded, hc.points]; rfl

theorem simplexUnwrap_nil (sp : Space) : S.simplexUnwrap sp [] = some ⟨sp, []⟩ := rfl

omit [LinearOrder K] [IsStrictOrderedRing K] in
theorem HullNull.check (hc : HullNull v D c) : S.hullCheck c = some () := by
  have h1 : S.simplexUnwrap c.subspace.embedded [] = some ⟨c.subspace.embedded, []⟩ := rfl
  have h2 : S.simplicesEq c.interior [⟨c.subspace.embedded, []⟩] = some true := by
    rw [hc.interior]
    simp [OrdOps.simplicesEq, OrdOps.simplexEq]
  have h3 : S.checkLow c = some () := by
    unfold OrdOps.checkLow
    rw [hc.dim]
    simp only [hc.facets, h1, h2, assertThat, List.length_nil, beq_self_eq_true, if_true, Option.bind_eq_bind, Option.bind_some]
  unfold OrdOps.hullCheck OrdOps.ridgeCounts OrdOps.checkSides
  simp [h3, hc.amb, hc.facets, hc.interior, assertThat, Simplex.n, hc.dim, Space.linDim]

omit [LinearOrder K] [IsStrictOrderedRing K] in
theorem hullEmpty_null (o : Oracle α) (hd : sp.dim = D + 1) : ∃ c, S.hullEmpty o sp = some c ∧ HullNull v D c ∧ c.ambient = sp := by
  refine ⟨⟨sp, ⟨sp, ⟨0, o.ident []⟩, []⟩, [], [⟨⟨0, o.ident []⟩, []⟩]⟩, rfl, ⟨⟨hd, ⟨by simp, ?_⟩, rfl⟩, rfl, rfl, rfl, rfl⟩, rfl⟩
  exact indep_nil

/-- the hull of one point -/
theorem HullNull.extend (hc : HullNull v D c) (h : S.Models v) (o : Oracle α) {pt : Vec α} (hp : pt.In c.ambient) :
    ∃ c' f l, S.extendOutside o c pt = some c' ∧ HullInv S v D 0 c' {pt.val v D} f l ∧ c'.ambient = c.ambient := by
  have hdim := hc.dim
  have hnot : pt.val v D ∉ affineSpan K (pointSet v D c.subspace.points) := by
    rw [hc.points]
    have : pointSet v D ([] : List (Vec α)) = ∅ := by unfold pointSet; simp
    rw [this, AffineSubspace.span_empty]
    exact AffineSubspace.notMem_bot K _ _
  obtain ⟨e1, e2, last, x1, v1, v2, x2, x3, x4, -, x5, hlast, hlv, hb⟩ := hc.sub.extendByPoint h (o.ident []) (n := 0) (by rw [hc.points]; rfl) (hc.amb ▸ hp) hnot
  have hn2 : e2.points.length = 0 + 1 := by rw [x5, hc.points]; rfl
  obtain ⟨f, hf⟩ := v2.map h hn2
  have hd1 : e1.ambient.dim = 0 + 1 := v1.dim
  set p : Fin 0 → K := last.val v 0 with hpdef
  have hnil : vertsOf v 0 ([] : List (Vec α)) = ∅ := by unfold vertsOf; rfl
  obtain ⟨o', y1, y2, y3, A, y4, -, -⟩ := h.newFacet hd1 (pts := []) (ref := last) (by simp) (x3 ▸ hlast) rfl (by rw [hnil]; rfl)
    (by rw [hnil]; haveI : IsEmpty (∅ : Finset (Fin 0 → K)) := ⟨fun x => absurd x.2 (Finset.notMem_empty _)⟩
        exact affineIndependent_of_subsingleton K _) (by
      rw [hnil, Finset.coe_empty, AffineSubspace.span_empty]
      exact AffineSubspace.notMem_bot K _ _)
  rw [hnil] at y3
  have hind : Independent v 0 e1.ambient [last] := by
    refine ⟨by simpa using x3 ▸ hlast, ?_⟩
    haveI : Subsingleton (Fin [last].length) := inferInstanceAs (Subsingleton (Fin 1))
    exact affineIndependent_of_subsingleton K _
  obtain ⟨t, t1, t2, t3⟩ := h.simplexUnwrap hd1 hind
  have ht : t.verts v 0 = {p} := by
    have : t.verts v 0 = vertsOf v 0 [last] := vertsOf_perm t3
    rw [this]; ext x; rw [mem_vertsOf]; simp [hpdef, eq_comm]
  let c' : Hull α := ⟨c.ambient, e2, [o'], [t]⟩
  have hbase : S.baseFacet c.subspace e1 last ⟨c.subspace.embedded, []⟩ = some o' := by
    unfold OrdOps.baseFacet
    simp only [List.mapM_nil, Option.pure_def, y1, assertThat, decide_true, if_true, Option.bind_eq_bind, Option.bind_some]
    rfl
  have hcone : S.coneSimplex e1 last ⟨c.subspace.embedded, []⟩ = some t := by
    unfold OrdOps.coneSimplex
    simp only [List.mapM_nil, Option.pure_def, List.nil_append, t1, Option.bind_eq_bind, Option.bind_some]
  have hres : S.extendOutside o c pt = some c' := by
    unfold OrdOps.extendOutside
    simp only [x1, x3, assertThat, decide_true, if_true, Option.bind_eq_bind, Option.bind_some, hc.facets, hc.interior, List.mapM_nil, List.mapM_cons, hbase,
      hcone, Option.pure_def]
    rfl
  have hfp : f p = pt.val v D := by
    have e0 : p = 0 := Subsingleton.elim _ _
    rw [e0, hf.zero (by omega)]
    simp only [x5, hc.points, List.nil_append, List.getElem_cons_zero]
  have hsimps : c'.simps v 0 = {{p}} := by
    unfold Hull.simps
    simp only [c', List.map_cons, List.map_nil, ht]
    rfl
  have hfacs : c'.facs v 0 = {∅} := by
    unfold Hull.facs
    simp only [c', List.map_cons, List.map_nil, y3]
    rfl
  have hone : ∀ x : Fin 0 → K, (AffineMap.const K (Fin 0 → K) (1 : K)) x = 1 := fun _ => rfl
  refine ⟨c', f, fun _ => AffineMap.const K _ 1, hres, ⟨v2, x4.trans hc.amb, hn2, hf, ?_, ?_, ?_, ?_, fun _ => rfl, ?_, by rw [hsimps]; exact Proper.single _, ?_, ?_, ?_⟩, rfl⟩
  · intro o2 ho2
    rw [List.mem_singleton.1 ho2, ← x3]; exact y2
  · intro s hs
    rw [List.mem_singleton.1 hs, ← x3]; exact t2
  · simp [c']
  · simp [c']
  · rw [hsimps, hfacs]
    refine ⟨⟨_, Finset.mem_singleton_self _⟩, ?_, ?_, ?_, ?_, ?_, ?_⟩
    · intro T hT
      rw [Finset.mem_singleton.1 hT]
      refine ⟨?_, by simp⟩
      haveI : Subsingleton ({p} : Finset (Fin 0 → K)) := ⟨fun a b => Subtype.ext (Subsingleton.elim _ _)⟩
      exact affineIndependent_of_subsingleton K _
    · intro F hF x hx
      rw [Finset.mem_singleton.1 hF] at hx
      simp at hx
    · intro F _ T _ x _
      rw [hone]; exact one_pos.le
    · intro F _
      exact ⟨0, by rw [hone]; exact one_ne_zero⟩
    · intro R
      rw [Finset.mem_singleton]
      constructor
      · rintro rfl
        have : ({({p} : Finset (Fin 0 → K))} : Finset (Finset (Fin 0 → K))).filter (IsFace ∅) = {{p}} := by
          ext T
          rw [Finset.mem_filter, Finset.mem_singleton]
          constructor
          · exact fun hh => hh.1
          · rintro rfl
            exact ⟨rfl, p, by simp, by simp⟩
        rw [this]; simp
      · intro hodd
        obtain ⟨T, hT⟩ := Finset.card_pos.1 hodd.pos
        rw [Finset.mem_filter, Finset.mem_singleton] at hT
        obtain ⟨rfl, i, hi, he⟩ := hT
        rw [Finset.mem_singleton.1 hi] at he
        rw [← he]; simp
    · intro T hT T' hT' x _ _
      rw [Finset.mem_singleton.1 hT, Finset.mem_singleton.1 hT']
  · intro o2 ho2
    exact ⟨fun _ x => rfl, fun hh => absurd rfl hh⟩
  · intro T hT x hx
    rw [hsimps, Finset.mem_singleton] at hT
    rw [hT, Finset.mem_singleton] at hx
    rw [hx, Set.mem_singleton_iff, hfp]
  · intro x hx
    rw [Set.mem_singleton_iff] at hx
    apply subset_convexHull
    refine ⟨p, ⟨{p}, by rw [hsimps]; simp, by simp⟩, by rw [hfp, hx]⟩

theorem HullOf.extend (hc : HullOf S v D c P) (h : S.Models v) {o : Oracle α} (ho : o.Fair) {pt : Vec α} (hp : pt.In c.ambient) :
    ∃ c', S.hullExtend o c pt = some c' ∧ HullOf S v D c' (insert (pt.val v D) P) ∧ c'.ambient = c.ambient := by
  rcases hc with ⟨rfl, hc⟩ | ⟨n, f, l, hi⟩
  · obtain ⟨c', f, l, h1, h2, h3⟩ := hc.extend h o hp
    refine ⟨c', ?_, .inr ⟨0, f, l, by simpa using h2⟩, h3⟩
    have hu : S.unembedPoint c.subspace pt = some none := by
      refine (hc.sub.unembed_none h (hc.amb ▸ hp)).2.2 ?_
      rw [hc.points]
      have : pointSet v D ([] : List (Vec α)) = ∅ := by unfold pointSet; simp
      rw [this, AffineSubspace.span_empty]
      exact AffineSubspace.notMem_bot K _ _
    unfold OrdOps.hullExtend
    simp only [hp.space, hc.check, hu, h1, h2.check h, assertThat, decide_true, if_true, Option.bind_eq_bind, Option.bind_some]
  · rcases hi.map.unembed pt (hi.amb ▸ hp) with ⟨q, q1, q2, q3⟩ | ⟨q1, q2⟩
    · obtain ⟨c', l', h1, h2, h3, -⟩ := hi.extendInside h o (ho.ridges []) q2
      refine ⟨c', ?_, .inr ⟨n, f, l', by rw [← q3]; exact h2⟩, h3⟩
      unfold OrdOps.hullExtend
      simp only [hp.space, hi.check h, q1, h1, h2.check h, assertThat, decide_true, if_true, Option.bind_eq_bind, Option.bind_some]
    · obtain ⟨c', f', l', h1, h2, h3, -, -⟩ := hi.extendOutside h o hp q2
      refine ⟨c', ?_, .inr ⟨n + 1, f', l', h2⟩, h3⟩
      unfold OrdOps.hullExtend
      simp only [hp.space, hi.check h, q1, h1, h2.check h, assertThat, decide_true, if_true, Option.bind_eq_bind, Option.bind_some]

theorem HullOf.loop (h : S.Models v) {o : Oracle α} (ho : o.Fair) {pts : List (Vec α)} : ∀ {i : Nat} {c : Hull α} {P : Set (Fin D → K)} (_ : HullOf S v D c P)
    (_ : ∀ p ∈ pts, p.In c.ambient), ∃ c', S.hullLoop o i c pts = some c' ∧ HullOf S v D c' (pointSet v D pts ∪ P) ∧ c'.ambient = c.ambient := by
  induction pts with
  | nil =>
    intro i c P hc _
    refine ⟨c, rfl, ?_, rfl⟩
    have : pointSet v D ([] : List (Vec α)) = ∅ := by unfold pointSet; simp
    rw [this, Set.empty_union]; exact hc
  | cons p ps ih =>
    intro i c P hc hp
    obtain ⟨c1, h1, h2, h3⟩ := hc.extend h (ho.sub i) (hp p (by simp))
    obtain ⟨c2, g1, g2, g3⟩ := ih (i := i + 1) h2 (fun q hq => h3 ▸ hp q (by simp [hq]))
    refine ⟨c2, ?_, ?_, g3.trans h3⟩
    · rw [OrdOps.hullLoop, h1]
      exact g1
    · have : pointSet v D (p :: ps) ∪ P = pointSet v D ps ∪ insert (p.val v D) P := by
        unfold pointSet
        ext x
        simp only [Set.mem_union, Set.mem_setOf_eq, List.mem_cons, Set.mem_insert_iff]
        constructor
        · rintro (⟨q, rfl | hq, rfl⟩ | hx)
          · exact .inr (.inl rfl)
          · exact .inl ⟨q, hq, rfl⟩
          · exact .inr (.inr hx)
        · rintro (⟨q, hq, rfl⟩ | rfl | hx)
          · exact .inl ⟨q, .inr hq, rfl⟩
          · exact .inl ⟨p, .inl rfl, rfl⟩
          · exact .inr hx
      rw [this]; exact g2

theorem OrdOps.Models.hullNew (h : S.Models v) {o : Oracle α} (ho : o.Fair) (hd : sp.dim = D + 1) {pts : List (Vec α)} (hp : ∀ p ∈ pts, p.In sp) :
    ∃ c, S.hullNew o sp pts = some c ∧ HullOf S v D c (pointSet v D pts) ∧ c.ambient = sp := by
  obtain ⟨c0, h1, h2, h3⟩ := hullEmpty_null (S := S) (v := v) (o.sub 0) hd
  obtain ⟨c, g1, g2, g3⟩ := HullOf.loop h ho (i := 1) (pts := pts) (.inl ⟨rfl, h2⟩) (fun p hp' => h3 ▸ hp p hp')
  refine ⟨c, ?_, by simpa using g2, g3.trans h3⟩
  unfold OrdOps.hullNew
  rw [h1]
  exact g1

end

end Verif.Geometry
