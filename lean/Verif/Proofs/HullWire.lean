import Verif.Proofs.HullSem
import Verif.Proofs.HullSection

/-! # The wireframe of a hull -/

namespace Verif.Geometry

open Classical Verif.Rings

noncomputable local instance (priority := 5000) decPt9 (K : Type) (d : Nat) : DecidableEq (Fin d → K) := fun a b => Classical.propDecidable (a = b)

section
variable {α K : Type} [Field K] [LinearOrder K] [IsStrictOrderedRing K]

/-- the pairs of points a list of pairs of vectors denotes -/
def edgeSet (v : α → K) (D : Nat) (es : List (Vec α × Vec α)) : Set ((Fin D → K) × (Fin D → K)) := {x | ∃ e ∈ es, (e.1.val v D, e.2.val v D) = x}

/-- `w` is a wireframe of the convex set `X` -/
structure WireOf (v : α → K) (D : Nat) (w : Wireframe α) (X : Set (Fin D → K)) : Prop where
  dim : w.ambient.dim = D + 1
  points : ∀ p ∈ w.points, p.In w.ambient
  edges : ∀ e ∈ w.edges, e.1.In w.ambient ∧ e.2.In w.ambient
  sec : Sec K X (pointSet v D w.points) (edgeSet v D w.edges)

variable {S : OrdOps α} {v : α → K} {D n : Nat} {sp : Space} {c : Hull α} {P : Set (Fin D → K)} {f : (Fin n → K) →ᵃ[K] (Fin D → K)}
  {l : Finset (Fin n → K) → (Fin n → K) →ᵃ[K] K}

omit [LinearOrder K] [IsStrictOrderedRing K] in
theorem pointSet_nil : pointSet v D ([] : List (Vec α)) = ∅ := by unfold pointSet; simp

omit [LinearOrder K] [IsStrictOrderedRing K] in
theorem edgeSet_nil : edgeSet v D ([] : List (Vec α × Vec α)) = ∅ := by unfold edgeSet; simp

theorem pair_sublist {β : Type} {L : List β} {p q : β} (hp : p ∈ L) (hq : q ∈ L) (hne : p ≠ q) : [p, q].Sublist L ∨ [q, p].Sublist L := by
  induction L with
  | nil => simp at hp
  | cons x L ih =>
    rcases List.mem_cons.1 hp with rfl | hp'
    · rcases List.mem_cons.1 hq with rfl | hq'
      · exact absurd rfl hne
      · exact .inl (List.Sublist.cons_cons _ (List.singleton_sublist.2 hq'))
    · rcases List.mem_cons.1 hq with rfl | hq'
      · exact .inr (List.Sublist.cons_cons _ (List.singleton_sublist.2 hp'))
      · rcases ih hp' hq' with h | h
        · exact .inl (h.cons _)
        · exact .inr (h.cons _)

namespace HullInv
variable (hi : HullInv S v D n c P f l) (h : S.Models v)
include hi h

/-- the vertices of the facets -/
theorem facetPoints : ∃ set, (c.facets.flatMap fun f => f.simplex.points).foldlM (hashInsert S.vecEq) [] = some set ∧
    (∀ p ∈ set, p.In c.subspace.embedded) ∧ (set.map (Vec.val v n)).Nodup ∧ ∀ x, x ∈ set.map (Vec.val v n) ↔ ∃ F ∈ c.facs v n, x ∈ F := by
  have hin : ∀ p ∈ c.facets.flatMap fun f => f.simplex.points, p.In c.subspace.embedded := by
    intro p hp
    obtain ⟨o', ho', hp⟩ := List.mem_flatMap.1 hp
    exact (hi.facets o' ho').simplex.points.mem p hp
  obtain ⟨set, s1, s2, s3, s4⟩ := hashInsert_set (eq := S.vecEq) (P := fun p => p.In c.subspace.embedded) (key := fun p : Vec α => p.val v n) (fun x y hx hy => by
        rw [h.vecEq hi.dim hx hy]; congr) hin
  refine ⟨set, s1, fun p hp => hin p (s2 p hp), s3, fun x => (s4 x).trans ?_⟩
  rw [List.mem_map]
  constructor
  · rintro ⟨p, hp, rfl⟩
    obtain ⟨o', ho', hp⟩ := List.mem_flatMap.1 hp
    exact ⟨_, mem_facs.2 ⟨o', ho', rfl⟩, mem_vertsOf.2 ⟨p, hp, rfl⟩⟩
  · rintro ⟨F, hF, hx⟩
    obtain ⟨o', ho', rfl⟩ := mem_facs.1 hF
    obtain ⟨p, hp, rfl⟩ := mem_vertsOf.1 hx
    exact ⟨p, List.mem_flatMap.2 ⟨o', ho', hp⟩, rfl⟩

/-- the edges of the facets -/
theorem facetEdges {o : Oracle α} (ho : o.Fair) : ∃ es set edges, (c.facets.mapM fun f => S.skeleton f.simplex 2) = some es ∧
    es.flatten.foldlM (hashInsert S.simplexEq) [] = some set ∧ (o.simplices [] set).mapM edgeEnds = some edges ∧ (n ≤ 1 → edges = []) ∧
    (∀ e ∈ edges, e.1.In c.subspace.embedded ∧ e.2.In c.subspace.embedded ∧ ∃ F ∈ c.facs v n, e.1.val v n ∈ F ∧ e.2.val v n ∈ F) ∧
    ∀ F ∈ c.facs v n, ∀ a ∈ F, ∀ b ∈ F, a ≠ b → (a, b) ∈ edgeSet v n edges ∨ (b, a) ∈ edgeSet v n edges := by
  have hd := hi.dim
  haveI : Nonempty (List (Simplex α)) := ⟨[]⟩
  obtain ⟨G, G1, G2⟩ := mapM_choose (L := c.facets) (f := fun f => S.skeleton f.simplex 2)
    (Q := fun fc t => (∀ t' ∈ t, t'.Valid v n c.subspace.embedded) ∧ (t.map Simplex.points).Perm (fc.simplex.points.sublistsLen 2)) (by
      intro fc hfc
      exact h.skeleton hd (hi.facets fc hfc).simplex 2)
  have hflat : ∀ t, t ∈ (c.facets.map G).flatten ↔ ∃ fc ∈ c.facets, t ∈ G fc := by
    intro t
    rw [List.mem_flatten]
    constructor
    · rintro ⟨l, hl, ht⟩
      obtain ⟨fc, hfc, rfl⟩ := List.mem_map.1 hl
      exact ⟨fc, hfc, ht⟩
    · rintro ⟨fc, hfc, ht⟩
      exact ⟨_, List.mem_map_of_mem hfc, ht⟩
  have hmem : ∀ t, (∃ fc ∈ c.facets, t ∈ G fc) → t.Valid v n c.subspace.embedded ∧ ∃ fc ∈ c.facets, t.points.Sublist fc.simplex.points ∧ t.points.length = 2 := by
    rintro t ⟨fc, hfc, ht⟩
    refine ⟨(G2 fc hfc).1 t ht, fc, hfc, ?_⟩
    exact List.mem_sublistsLen.1 ((G2 fc hfc).2.mem_iff.1 (List.mem_map_of_mem ht))
  obtain ⟨set, s1, s2, -, s4⟩ := hashInsert_set (eq := S.simplexEq) (P := fun t => t.Valid v n c.subspace.embedded) (key := fun t : Simplex α => t.verts v n)
    (fun x y hx hy => by rw [h.simplexEq_verts hd hx hy]) (l := (c.facets.map G).flatten) (fun t ht => (hmem t ((hflat t).1 ht)).1)
  have hperm := ho.simplices [] set
  haveI : Nonempty (Vec α) := ⟨⟨⟨0, 0⟩, []⟩⟩
  obtain ⟨H, H1, H2⟩ := mapM_choose (L := o.simplices [] set) (f := edgeEnds) (Q := fun t e => t.points = [e.1, e.2]) (by
    intro t ht
    obtain ⟨-, fc, hfc, -, hl⟩ := hmem t ((hflat t).1 (s2 t (hperm.mem_iff.1 ht)))
    obtain ⟨a, b, hab⟩ := List.length_eq_two.1 hl
    refine ⟨(a, b), ?_, hab⟩
    unfold edgeEnds
    rw [hab]; rfl)
  refine ⟨c.facets.map G, set, _, G1, s1, H1, ?_, ?_, ?_⟩
  · intro hn
    rw [List.map_eq_nil_iff, List.eq_nil_iff_forall_not_mem]
    intro t ht
    obtain ⟨-, fc, hfc, hs, hl⟩ := hmem t ((hflat t).1 (s2 t (hperm.mem_iff.1 ht)))
    have := hs.length_le
    rw [hl, (hi.facets fc hfc).length] at this
    omega
  · intro e he
    obtain ⟨t, ht, rfl⟩ := List.mem_map.1 he
    have htp := H2 t ht
    obtain ⟨hv, fc, hfc, hs, -⟩ := hmem t ((hflat t).1 (s2 t (hperm.mem_iff.1 ht)))
    have m1 : (H t).1 ∈ t.points := by rw [htp]; simp
    have m2 : (H t).2 ∈ t.points := by rw [htp]; simp
    exact ⟨hv.points.mem _ m1, hv.points.mem _ m2, _, mem_facs.2 ⟨fc, hfc, rfl⟩, mem_vertsOf.2 ⟨_, hs.subset m1, rfl⟩, mem_vertsOf.2 ⟨_, hs.subset m2, rfl⟩⟩
  · intro F hF a ha b hb hab
    obtain ⟨fc, hfc, rfl⟩ := mem_facs.1 hF
    obtain ⟨p, hp, rfl⟩ := mem_vertsOf.1 ha
    obtain ⟨q, hq, rfl⟩ := mem_vertsOf.1 hb
    have hne : p ≠ q := fun e => hab (by rw [e])
    obtain ⟨t, ht, htv⟩ : ∃ t ∈ G fc, t.verts v n = {p.val v n, q.val v n} := by
      rcases pair_sublist hp hq hne with hs | hs
      · have := (G2 fc hfc).2.mem_iff.2 (List.mem_sublistsLen.2 ⟨hs, rfl⟩)
        obtain ⟨t, ht, e⟩ := List.mem_map.1 this
        refine ⟨t, ht, ?_⟩
        unfold Simplex.verts
        rw [e]
        ext x; simp [mem_vertsOf, eq_comm]
      · have := (G2 fc hfc).2.mem_iff.2 (List.mem_sublistsLen.2 ⟨hs, rfl⟩)
        obtain ⟨t, ht, e⟩ := List.mem_map.1 this
        refine ⟨t, ht, ?_⟩
        unfold Simplex.verts
        rw [e]
        ext x; simp [mem_vertsOf, eq_comm, or_comm]
    have hk : t.verts v n ∈ set.map fun t => t.verts v n := (s4 _).2 (List.mem_map.2 ⟨t, (hflat t).2 ⟨fc, hfc, ht⟩, rfl⟩)
    obtain ⟨t', ht', e⟩ := List.mem_map.1 hk
    have ht'' := hperm.mem_iff.2 ht'
    have htp := H2 t' ht''
    have hE : H t' ∈ (o.simplices [] set).map H := List.mem_map_of_mem ht''
    have hvv : ({(H t').1.val v n, (H t').2.val v n} : Finset (Fin n → K)) = {p.val v n, q.val v n} := by
      rw [← htv, ← e]
      unfold Simplex.verts
      rw [htp]
      ext x; simp [mem_vertsOf, eq_comm]
    have x1 : p.val v n ∈ ({(H t').1.val v n, (H t').2.val v n} : Finset (Fin n → K)) := by rw [hvv]; simp
    have x2 : q.val v n ∈ ({(H t').1.val v n, (H t').2.val v n} : Finset (Fin n → K)) := by rw [hvv]; simp
    simp only [Finset.mem_insert, Finset.mem_singleton] at x1 x2
    rcases x1 with x1 | x1 <;> rcases x2 with x2 | x2
    · exact absurd (x1.trans x2.symm) hab
    · exact .inl ⟨_, hE, by rw [x1, x2]⟩
    · exact .inr ⟨_, hE, by rw [x1, x2]⟩
    · exact absurd (x1.trans x2.symm) hab

/-- in dimension one there are two facets -/
theorem twoPoints (h1 : n = 1) {set : List (Vec α)} (hn : (set.map (Vec.val v n)).Nodup) (hs : ∀ x, x ∈ set.map (Vec.val v n) ↔ ∃ F ∈ c.facs v n, x ∈ F) :
    set.length = 2 := by
  have hcard : ∀ F ∈ c.facs v n, F.card = 1 := by
    intro F hF
    obtain ⟨o', ho', rfl⟩ := mem_facs.1 hF
    exact (hi.facets o' ho').simplex.points.verts_card.trans ((hi.facets o' ho').length.trans h1)
  have hface : ∀ F ∈ c.facs v n, IsFace ∅ F := by
    intro F hF
    obtain ⟨a, rfl⟩ := Finset.card_eq_one.1 (hcard F hF)
    exact ⟨a, by simp, by simp⟩
  obtain ⟨F, hF⟩ := hi.hull.facets_nonempty
  have h2 := hi.hull.ridge_two hF (hface F hF)
  rw [Finset.filter_true_of_mem hface] at h2
  obtain ⟨F1, F2, hne, e⟩ := Finset.card_eq_two.1 h2
  obtain ⟨a, ha⟩ := Finset.card_eq_one.1 (hcard F1 (by rw [e]; simp))
  obtain ⟨b, hb⟩ := Finset.card_eq_one.1 (hcard F2 (by rw [e]; simp))
  have hab : a ≠ b := fun hh => hne (by rw [ha, hb, hh])
  have e2 : (set.map (Vec.val v n)).toFinset = {a, b} := by
    ext x
    rw [List.mem_toFinset, hs, e]
    simp [ha, hb]
  have := congrArg Finset.card e2
  rw [List.toFinset_card_of_nodup hn, List.length_map, Finset.card_pair hab] at this
  exact this

/-- the wireframe in the embedded space -/
theorem outer {o : Oracle α} (ho : o.Fair) : ∃ pts edges, S.outerPoints o c = some pts ∧ S.outerEdges o c pts = some edges ∧
    (∀ p ∈ pts, p.In c.subspace.embedded) ∧ (∀ e ∈ edges, e.1.In c.subspace.embedded ∧ e.2.In c.subspace.embedded) ∧
    Sec K {x | ∀ F ∈ c.facs v n, 0 ≤ l F x} (pointSet v n pts) (edgeSet v n edges) := by
  have hd := hi.dim
  obtain ⟨set, s1, s2, s3, s4⟩ := hi.facetPoints h
  obtain ⟨es, set2, edges, t1, t2, t3, t4, t5, t6⟩ := hi.facetEdges h ho
  have hperm := ho.points [] set
  have hps : pointSet v n (o.points [] set) = {y | ∃ F ∈ c.facs v n, y ∈ F} := by
    ext x
    rw [Set.mem_setOf_eq, ← s4, List.mem_map]
    unfold pointSet
    simp only [Set.mem_setOf_eq, hperm.mem_iff]
  have hsub : ∀ F ∈ c.facs v n, ∀ y ∈ F, ∀ G ∈ c.facs v n, 0 ≤ l G y := fun F hF y hy G hG => hi.hull.nonneg_facet hF hG hy
  by_cases h0 : n = 0
  · subst h0
    have hset : set = [] := by
      rw [← List.map_eq_nil_iff (f := Vec.val v 0), List.eq_nil_iff_forall_not_mem]
      intro x hx
      obtain ⟨F, hF, hx⟩ := (s4 x).1 hx
      obtain ⟨o', ho', rfl⟩ := mem_facs.1 hF
      obtain ⟨p, hp, -⟩ := mem_vertsOf.1 hx
      rw [List.length_eq_zero_iff.1 (hi.facets o' ho').length] at hp
      simp at hp
    subst hset
    have hpn : o.points [] [] = [] := List.perm_nil.1 hperm
    obtain ⟨root, span, r1, -, -, -, hl, -⟩ := hi.sub.rootAndSpan h hi.len
    have hnew : Vec.new c.subspace.embedded ([] : List α) = some ⟨c.subspace.embedded, []⟩ := by
      unfold Vec.new
      rw [Space.linDim_eq hd]
      simp [assertThat]
    refine ⟨[⟨c.subspace.embedded, []⟩], [], ?_, ?_, ?_, by simp, ?_⟩
    · unfold OrdOps.outerPoints
      rw [s1]
      simp only [hpn, hd, r1, hl, hnew, assertThat, List.length_nil, beq_self_eq_true, if_true, Option.bind_eq_bind, Option.bind_some, List.nil_append]
    · unfold OrdOps.outerEdges
      rw [t1]
      simp only [t2, t3, t4 (by omega), hd, Option.bind_eq_bind, Option.bind_some]
      rfl
    · intro p hp
      rw [List.mem_singleton.1 hp]
      exact ⟨rfl, by simp [hd]⟩
    · rw [edgeSet_nil]
      have e1 : {x : Fin 0 → K | ∀ F ∈ c.facs v 0, 0 ≤ l F x} = {0} := by
        ext x
        rw [Set.mem_setOf_eq, Set.mem_singleton_iff]
        constructor
        · intro _; exact Subsingleton.elim _ _
        · rintro rfl F hF
          obtain ⟨o', ho', rfl⟩ := mem_facs.1 hF
          rw [(hi.fits o' ho').1 rfl]
          exact one_pos.le
      have e2 : pointSet v 0 [(⟨c.subspace.embedded, []⟩ : Vec α)] = {0} := by
        ext x
        rw [Set.mem_singleton_iff]
        constructor
        · intro _; exact Subsingleton.elim _ _
        · rintro rfl
          exact ⟨_, List.mem_singleton_self _, Subsingleton.elim _ _⟩
      rw [e1, e2]
      exact Sec.point 0
  · have hpts : S.outerPoints o c = some (o.points [] set) := by
      unfold OrdOps.outerPoints
      rw [s1]
      simp only [hd, Option.bind_eq_bind, Option.bind_some]
      rw [if_neg (by omega)]
    have hin : ∀ p ∈ o.points [] set, p.In c.subspace.embedded := fun p hp => s2 p (hperm.mem_iff.1 hp)
    by_cases h1 : n = 1
    · have hlen := hperm.length_eq.trans (hi.twoPoints h h1 s3 s4)
      obtain ⟨a, b, hab⟩ := List.length_eq_two.1 hlen
      rw [hab] at hin hps hpts
      have hs : pointSet v n [a, b] = {a.val v n, b.val v n} := by
        unfold pointSet; ext x; simp [eq_comm]
      refine ⟨[a, b], [(a, b)], hpts, ?_, hin, ?_, ?_⟩
      · unfold OrdOps.outerEdges
        rw [t1]
        simp only [t2, t3, t4 h1.le, hd, h1, assertThat, Option.bind_eq_bind, Option.bind_some]
        rfl
      · intro e he
        rw [List.mem_singleton.1 he]
        exact ⟨hin a (by simp), hin b (by simp)⟩
      · have e1 : {x | ∀ F ∈ c.facs v n, 0 ≤ l F x} = segment K (a.val v n) (b.val v n) := by
          rw [← convexHull_pair, ← hs, hps]
          apply Set.Subset.antisymm
          · intro x hx
            exact hi.hull.boundary_conv (by rw [Module.finrank_fin_fun]; omega) hx
          · intro x hx F hF
            refine nonneg_conv hx ?_
            rintro y ⟨G, hG, hy⟩
            exact hsub G hG y hy F hF
        have e2 : edgeSet v n [(a, b)] = {(a.val v n, b.val v n)} := by
          unfold edgeSet; ext x; simp [eq_comm]
        rw [e1, hs, e2]
        exact Sec.edge _ _
    · refine ⟨o.points [] set, edges, hpts, ?_, hin, fun e he => ⟨(t5 e he).1, (t5 e he).2.1⟩, ?_⟩
      · unfold OrdOps.outerEdges
        rw [t1]
        simp only [t2, t3, hd, Option.bind_eq_bind, Option.bind_some]
        rw [if_neg (by omega)]
      · rw [hps]
        refine hi.hull.sec (by rw [Module.finrank_fin_fun]; omega) t6 ?_
        rintro _ ⟨e, he, rfl⟩
        exact (t5 e he).2.2

end HullInv

theorem HullOf.wireframe (hc : HullOf S v D c P) (h : S.Models v) {o : Oracle α} (ho : o.Fair) :
    ∃ w, S.wireframe o c = some w ∧ WireOf v D w (convexHull K P) ∧ w.ambient = c.ambient := by
  rcases hc with ⟨rfl, hc⟩ | ⟨n, f, l, hi⟩
  · have hpn : o.points [] [] = [] := List.perm_nil.1 (ho.points [] [])
    have hsn : o.simplices [] [] = [] := List.perm_nil.1 (ho.simplices [] [])
    refine ⟨⟨c.subspace.ambient, [], []⟩, ?_, ⟨hc.sub.dim, by simp, by simp, ?_⟩, hc.amb⟩
    · have h1 : S.outerPoints o c = some [] := by
        unfold OrdOps.outerPoints
        simp [hc.facets, hc.dim, hpn]
      have h2 : S.outerEdges o c [] = some [] := by
        unfold OrdOps.outerEdges
        simp [hc.facets, hc.dim, hsn]
      unfold OrdOps.wireframe
      simp [h1, h2]
    · rw [pointSet_nil, edgeSet_nil, convexHull_empty]
      exact Sec.nil
  · obtain ⟨pts, edges, h1, h2, h3, h4, h5⟩ := hi.outer h ho
    obtain ⟨qs, q1, -, q3, q4, -⟩ := hi.map.embedAll h3
    haveI : Nonempty (Vec α) := ⟨⟨⟨0, 0⟩, []⟩⟩
    obtain ⟨G, G1, G2⟩ := mapM_choose (L := edges) (f := fun e => do
        let a ← S.embedPoint c.subspace e.1
        let b ← S.embedPoint c.subspace e.2
        some (a, b)) (Q := fun (e e' : Vec α × Vec α) => e'.1.In c.subspace.ambient ∧ e'.2.In c.subspace.ambient ∧ e'.1.val v D = f (e.1.val v n) ∧ e'.2.val v D = f (e.2.val v n)) (by
      intro e he
      obtain ⟨a, a1, a2, a3⟩ := hi.map.embed e.1 (h4 e he).1
      obtain ⟨b, b1, b2, b3⟩ := hi.map.embed e.2 (h4 e he).2
      exact ⟨(a, b), by simp only [a1, b1, Option.bind_eq_bind, Option.bind_some], a2, b2, a3, b3⟩)
    refine ⟨⟨c.subspace.ambient, qs, edges.map G⟩, ?_, ⟨hi.sub.dim, q3, ?_, ?_⟩, hi.amb⟩
    · unfold OrdOps.wireframe
      simp only [h1, h2, q1, G1, Option.bind_eq_bind, Option.bind_some] at G1 ⊢
    · intro e he
      obtain ⟨e0, he0, rfl⟩ := List.mem_map.1 he
      exact ⟨(G2 e0 he0).1, (G2 e0 he0).2.1⟩
    · have e1 : pointSet v D qs = f '' pointSet v n pts := by
        rw [← coe_vertsOf, q4, Finset.coe_image, coe_vertsOf]
      have e2 : edgeSet v D (edges.map G) = (fun e : (Fin n → K) × (Fin n → K) => (f e.1, f e.2)) '' edgeSet v n edges := by
        ext x
        constructor
        · rintro ⟨e, he, rfl⟩
          obtain ⟨e0, he0, rfl⟩ := List.mem_map.1 he
          exact ⟨_, ⟨e0, he0, rfl⟩, by rw [(G2 e0 he0).2.2.1, (G2 e0 he0).2.2.2]⟩
        · rintro ⟨_, ⟨e0, he0, rfl⟩, rfl⟩
          exact ⟨_, List.mem_map_of_mem he0, by rw [(G2 e0 he0).2.2.1, (G2 e0 he0).2.2.2]⟩
      simp only [e1, e2]
      rw [hi.region]
      exact h5.image f

end

end Verif.Geometry
