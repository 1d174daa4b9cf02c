import Verif.Proofs.Complex3

/-! # Boolean operations on disjoint unions, and the closure of a partial complex -/

namespace Verif.Geometry

open Classical Verif.Rings

noncomputable local instance (priority := 5000) decPt23 (K : Type) (d : Nat) : DecidableEq (Fin d → K) := fun a b => Classical.propDecidable (a = b)

section
variable {α K T U : Type} [Field K] [LinearOrder K] [IsStrictOrderedRing K] {S : OrdOps α} {v : α → K} {D n : Nat} {sp : Space}

omit [IsStrictOrderedRing K] in
theorem regionOf_append (l l' : List (Simplex α)) : regionOf v D (l ++ l') = regionOf v D l ∪ regionOf v D l' := by
  ext x; simp only [regionOf, Set.mem_setOf_eq, List.mem_append, Set.mem_union, or_and_right, exists_or]

omit [IsStrictOrderedRing K] in
theorem Cells.filter {l : List (Simplex α)} (hl : Cells v D sp l) {l' : List (Simplex α)} (h : l'.Sublist l) : Cells v D sp l' :=
  ⟨fun s hs => hl.valid s (h.mem hs), fun s hs => hl.ne s (h.mem hs), hl.nodup.sublist (h.map _), fun s hs t ht => hl.disj s (h.mem hs) t (h.mem ht)⟩

omit [IsStrictOrderedRing K] in
theorem subsetByLabel_sublist [DecidableEq T] (c : Coll α T) (label : T) : (c.subsetByLabel label).spxs.Sublist c.spxs := by
  simp only [Coll.spxs, Coll.subsetByLabel, Coll.mapLabel, Coll.subsetByFilter, List.map_map]
  exact List.filter_sublist.map _

/-- cells with the same keys -/
theorem Cells.of_keys {l l' : List (Simplex α)} (hv : ∀ s ∈ l', s ∈ l) (hn : (l'.map (Simplex.verts v D)).Nodup)
    (hl : (∀ s ∈ l, s.Valid v D sp) ∧ (∀ s ∈ l, s.points ≠ []) ∧
      ∀ s ∈ l, ∀ t ∈ l, ∀ x, x ∈ openSimplex K (s.verts v D) → x ∈ openSimplex K (t.verts v D) → s.verts v D = t.verts v D) : Cells v D sp l' :=
  ⟨fun s hs => hl.1 s (hv s hs), fun s hs => hl.2.1 s (hv s hs), hn, fun s hs t ht => hl.2.2 s (hv s hs) t (hv t ht)⟩

/-- cells of two disjoint regions -/
theorem Cells.append {l l' : List (Simplex α)} (hl : Cells v D sp l) (hl' : Cells v D sp l') (hd : Disjoint (regionOf v D l) (regionOf v D l')) :
    Cells v D sp (l ++ l') := by
  have hx : ∀ s ∈ l, ∀ t ∈ l', ∀ x, x ∈ openSimplex K (s.verts v D) → x ∈ openSimplex K (t.verts v D) → False := by
    intro s hs t ht x h1 h2
    exact Set.disjoint_left.1 hd ⟨s, hs, h1⟩ ⟨t, ht, h2⟩
  refine ⟨?_, ?_, ?_, ?_⟩
  · intro s hs
    rcases List.mem_append.1 hs with hs | hs
    · exact hl.valid s hs
    · exact hl'.valid s hs
  · intro s hs
    rcases List.mem_append.1 hs with hs | hs
    · exact hl.ne s hs
    · exact hl'.ne s hs
  · rw [List.map_append, List.nodup_append]
    refine ⟨hl.nodup, hl'.nodup, ?_⟩
    intro A hA B hB he
    obtain ⟨s, hs, rfl⟩ := List.mem_map.1 hA
    obtain ⟨t, ht, rfl⟩ := List.mem_map.1 hB
    obtain ⟨x, hx'⟩ := openSimplex_nonempty (K := K) (Simplex.verts_nonempty (v := v) (D := D) (hl.ne s hs))
    exact hx s hs t ht x hx' (he ▸ hx')
  · intro s hs t ht x h1 h2
    rcases List.mem_append.1 hs with hs | hs <;> rcases List.mem_append.1 ht with ht | ht
    · exact hl.disj s hs t ht x h1 h2
    · exact absurd (hx s hs t ht x h1 h2) id
    · exact absurd (hx t ht s hs x h2 h1) id
    · exact hl'.disj s hs t ht x h1 h2

/-! ## Taking one simplex away -/

theorem OrdOps.Models.leftover (h : S.Models v) (hd : sp.dim = D + 1) {o : Oracle α} (ho : o.Fair) {t : Simplex α} (ht : t.Valid v D sp)
    {l : List (Simplex α)} (hl : Cells v D sp l) :
    ∃ r, S.leftover o t l = some r ∧ Cells v D sp r ∧ regionOf v D r = regionOf v D l \ openSimplex K (t.verts v D) := by
  have hperm := ho.simplices [] l
  have hl' := hl.perm hperm
  set l' := o.simplices [] l with hl'def
  obtain ⟨G, g1, g2⟩ := mapM_choose (L := l'.zipIdx) (f := fun e => (S.venn (o.sub e.2) e.1 t).map fun c => (c.subsetByLabel .left).spxs)
    (Q := fun (e : Simplex α × Nat) (r : List (Simplex α)) => Cells v D sp r ∧ regionOf v D r = openSimplex K (e.1.verts v D) \ openSimplex K (t.verts v D)) (by
      intro e he
      have hm : e.1 ∈ l' := List.fst_mem_of_mem_zipIdx he
      obtain ⟨c, c1, c2⟩ := h.venn hd (ho.sub e.2) (hl'.valid _ hm) ht
      exact ⟨_, by rw [c1]; rfl, c2.cells.filter (subsetByLabel_sublist _ _), c2.left⟩)
  have hall : ∀ u, u ∈ (l'.zipIdx.map G).flatten ↔ ∃ e ∈ l'.zipIdx, u ∈ G e := by
    intro u
    simp only [List.mem_flatten, List.mem_map]
    constructor
    · rintro ⟨_, ⟨e, he, rfl⟩, hu⟩; exact ⟨e, he, hu⟩
    · rintro ⟨e, he, hu⟩; exact ⟨_, ⟨e, he, rfl⟩, hu⟩
  have hv : ∀ u ∈ (l'.zipIdx.map G).flatten, u.Valid v D sp := by
    intro u hu
    obtain ⟨e, he, hu⟩ := (hall u).1 hu
    exact (g2 e he).1.valid u hu
  obtain ⟨r, r1, r2, r3, r4⟩ := hashInsert_set (P := fun t : Simplex α => t.Valid v D sp) (key := Simplex.verts v D) (eq := S.simplexEq)
    (fun x y hx hy => h.simplexEq_verts hd hx hy) hv
  refine ⟨r, ?_, Cells.of_keys r2 r3 ⟨hv, ?_, ?_⟩, ?_⟩
  · unfold OrdOps.leftover
    simp only [← hl'def, g1, Option.bind_eq_bind, Option.bind_some, r1]
  · intro u hu
    obtain ⟨e, he, hu⟩ := (hall u).1 hu
    exact (g2 e he).1.ne u hu
  · intro u hu w hw x hxu hxw
    obtain ⟨e, he, hu⟩ := (hall u).1 hu
    obtain ⟨e', he', hw⟩ := (hall w).1 hw
    have h1 : x ∈ regionOf v D (G e) := ⟨u, hu, hxu⟩
    have h2 : x ∈ regionOf v D (G e') := ⟨w, hw, hxw⟩
    rw [(g2 e he).2] at h1
    rw [(g2 e' he').2] at h2
    have hee : e = e' := by
      have h3 := hl'.disj _ (List.fst_mem_of_mem_zipIdx he) _ (List.fst_mem_of_mem_zipIdx he') x h1.1 h2.1
      obtain ⟨i, hi⟩ := List.getElem_of_mem he
      obtain ⟨j, hj⟩ := List.getElem_of_mem he'
      obtain ⟨hi1, hi2⟩ := hi
      obtain ⟨hj1, hj2⟩ := hj
      rw [List.getElem_zipIdx] at hi2 hj2
      subst hi2
      subst hj2
      simp only at h3
      have hii : i < l'.length := by simpa using hi1
      have hjj : j < l'.length := by simpa using hj1
      have : i = j := by
        have hn := hl'.nodup
        rw [List.nodup_iff_injective_getElem] at hn
        have := @hn ⟨i, by simpa using hii⟩ ⟨j, by simpa using hjj⟩ (by simpa using h3)
        simpa using this
      subst this
      rfl
    subst hee
    exact (g2 e he).1.disj u hu w hw x hxu hxw
  · rw [regionOf_keys r4, ← regionOf_perm hperm]
    ext x
    constructor
    · rintro ⟨u, hu, hx⟩
      obtain ⟨e, he, hu⟩ := (hall u).1 hu
      have h1 : x ∈ regionOf v D (G e) := ⟨u, hu, hx⟩
      rw [(g2 e he).2] at h1
      exact ⟨⟨e.1, List.fst_mem_of_mem_zipIdx he, h1.1⟩, h1.2⟩
    · rintro ⟨⟨s, hs, hx⟩, hxt⟩
      obtain ⟨i, hi, rfl⟩ := List.getElem_of_mem hs
      have he : (l'[i], i) ∈ l'.zipIdx := by
        rw [List.mem_zipIdx_iff_getElem?]; simp [hi]
      have : x ∈ regionOf v D (G (l'[i], i)) := by rw [(g2 _ he).2]; exact ⟨hx, hxt⟩
      obtain ⟨u, hu, hxu⟩ := this
      exact ⟨u, (hall u).2 ⟨_, he, hu⟩, hxu⟩

theorem OrdOps.Models.leftoverLoop (h : S.Models v) (hd : sp.dim = D + 1) {o : Oracle α} (ho : o.Fair) {ts : List (Simplex α)} (hts : ∀ t ∈ ts, t.Valid v D sp) :
    ∀ {i : Nat} {l : List (Simplex α)} (_ : Cells v D sp l),
    ∃ r, S.leftoverLoop o i ts l = some r ∧ Cells v D sp r ∧ regionOf v D r = regionOf v D l \ regionOf v D ts := by
  induction ts with
  | nil => intro i l hl; exact ⟨l, rfl, hl, by simp [regionOf]⟩
  | cons t ts ih =>
    intro i l hl
    obtain ⟨r, r1, r2, r3⟩ := h.leftover hd (ho.sub i) (hts t List.mem_cons_self) hl
    obtain ⟨q, q1, q2, q3⟩ := ih (fun a ha => hts a (List.mem_cons_of_mem _ ha)) (i := i + 1) r2
    refine ⟨q, ?_, q2, ?_⟩
    · rw [OrdOps.leftoverLoop]
      simp only [r1, Option.bind_eq_bind, Option.bind_some, q1]
    · rw [q3, r3]
      ext x
      simp only [regionOf, Set.mem_diff, Set.mem_setOf_eq, List.mem_cons, or_and_right, exists_or, exists_eq_left, not_or, and_assoc]

/-! ## Insertion -/

/-- the union of the open simplices with one label -/
def regionWith (v : α → K) (D : Nat) (m : List (Simplex α × T)) (label : T) : Set (Fin D → K) := {x | ∃ e ∈ m, e.2 = label ∧ x ∈ openSimplex K (e.1.verts v D)}

theorem hashPut_new (h : S.Models v) (hd : sp.dim = D + 1) {m : List (Simplex α × T)} (hm : ∀ e ∈ m, e.1.Valid v D sp) {x : Simplex α} (hx : x.Valid v D sp)
    (hn : x.verts v D ∉ m.map fun e => e.1.verts v D) (y : T) : hashPut S.simplexEq x y m = some (m ++ [(x, y)]) := by
  induction m with
  | nil => rfl
  | cons e m ih =>
    rw [List.map_cons, List.mem_cons, not_or] at hn
    rw [hashPut]
    simp only [h.simplexEq_verts hd hx (hm e List.mem_cons_self), hn.1, decide_false, Option.bind_eq_bind, Option.bind_some,
      ih (fun a ha => hm a (List.mem_cons_of_mem _ ha)) hn.2]
    rfl

theorem OrdOps.Models.putAll (h : S.Models v) (hd : sp.dim = D + 1) {l : List (Simplex α)} (label : T) :
    ∀ {m : List (Simplex α × T)} (_ : Cells v D sp (m.map Prod.fst ++ l)), S.putAll m l label = some (m ++ l.map fun s => (s, label)) := by
  unfold OrdOps.putAll
  induction l with
  | nil => intro m _; simp
  | cons s l ih =>
    intro m hm
    have hnd := hm.nodup
    rw [List.map_append, List.map_cons, List.nodup_append] at hnd
    have h1 := hashPut_new h hd (m := m) (x := s) (fun e he => hm.valid _ (List.mem_append_left _ (List.mem_map_of_mem he))) (hm.valid s (by simp))
      (fun hh => hnd.2.2 (s.verts v D) (by rw [List.map_map]; exact hh) (s.verts v D) List.mem_cons_self rfl) label
    rw [List.foldlM_cons, h1]
    simp only [Option.bind_eq_bind, Option.bind_some]
    rw [ih (m := m ++ [(s, label)]) (by rw [List.map_append, List.append_assoc]; exact hm)]
    simp

theorem regionWith_append (m : List (Simplex α × T)) (l : List (Simplex α)) (label label' : T) : regionWith v D (m ++ l.map fun s => (s, label)) label' =
    regionWith v D m label' ∪ {x | label = label' ∧ x ∈ regionOf v D l} := by
  ext x
  simp only [regionWith, regionOf, Set.mem_setOf_eq, List.mem_append, Set.mem_union, List.mem_map]
  constructor
  · rintro ⟨e, he | ⟨s, hs, rfl⟩, h1, h2⟩
    · exact .inl ⟨e, he, h1, h2⟩
    · exact .inr ⟨h1, s, hs, h2⟩
  · rintro (⟨e, he, h1, h2⟩ | ⟨h1, s, hs, h2⟩)
    · exact ⟨e, .inl he, h1, h2⟩
    · exact ⟨_, .inr ⟨s, hs, rfl⟩, h1, h2⟩

/-! ## Subtraction -/

theorem OrdOps.Models.subtractLoop (h : S.Models v) (hd : sp.dim = D + 1) {o : Oracle α} (ho : o.Fair) {others : List (Simplex α)}
    (hts : ∀ t ∈ others, t.Valid v D sp) {es : List (Simplex α × T)} :
    ∀ {i : Nat} {m : List (Simplex α × T)} (_ : Cells v D sp (m.map Prod.fst)) (_ : Cells v D sp (es.map Prod.fst))
      (_ : Disjoint (regionOf v D (m.map Prod.fst)) (regionOf v D (es.map Prod.fst))),
    ∃ r, S.subtractLoop o others i es m = some r ∧ Cells v D sp (r.map Prod.fst) ∧
      ∀ label, regionWith v D r label = regionWith v D m label ∪ (regionWith v D es label \ regionOf v D others) := by
  induction es with
  | nil =>
    intro i m hm _ _
    exact ⟨m, rfl, hm, fun label => by simp [regionWith]⟩
  | cons e es ih =>
    intro i m hm hes hdis
    have hperm := ho.simplices [i] others
    have hone : Cells v D sp [e.1] := hes.filter (by simp)
    obtain ⟨l, l1, l2, l3⟩ := h.leftoverLoop hd (ho.sub i) (ts := o.simplices [i] others) (fun t ht => hts t (hperm.mem_iff.1 ht)) (i := 0) hone
    rw [regionOf_perm hperm] at l3
    have hreg1 : regionOf v D [e.1] = openSimplex K (e.1.verts v D) := by ext x; simp [regionOf]
    have hrc : regionOf v D ((e :: es).map Prod.fst) = openSimplex K (e.1.verts v D) ∪ regionOf v D (es.map Prod.fst) := by
      rw [List.map_cons, ← List.singleton_append, regionOf_append, hreg1]
    rw [hrc] at hdis
    have hsub : regionOf v D l ⊆ openSimplex K (e.1.verts v D) := by rw [l3, hreg1]; exact Set.diff_subset
    have hml : Cells v D sp (m.map Prod.fst ++ l) := hm.append l2 (hdis.mono_right (hsub.trans Set.subset_union_left))
    have hput := h.putAll hd e.2 hml
    have hfst : (m ++ l.map fun s => (s, e.2)).map Prod.fst = m.map Prod.fst ++ l := by
      rw [List.map_append, List.map_map]; congr 1; exact List.map_id l
    have hhead : Disjoint (openSimplex K (e.1.verts v D)) (regionOf v D (es.map Prod.fst)) := by
      rw [Set.disjoint_left]
      rintro x hx ⟨t, ht, hxt⟩
      have := hes.disj e.1 (by simp) t (by rw [List.map_cons]; exact List.mem_cons_of_mem _ ht) x hx hxt
      have hnd := hes.nodup
      rw [List.map_cons, List.map_cons, List.nodup_cons] at hnd
      exact hnd.1 (this ▸ List.mem_map_of_mem ht)
    obtain ⟨r, r1, r2, r3⟩ := ih (i := i + 1) (m := m ++ l.map fun s => (s, e.2)) (by rw [hfst]; exact hml) (hes.filter (by simp)) (by
      rw [hfst, regionOf_append]
      exact Set.disjoint_union_left.2 ⟨hdis.mono_right Set.subset_union_right, hhead.mono_left hsub⟩)
    refine ⟨r, ?_, r2, fun label => ?_⟩
    · rw [OrdOps.subtractLoop]
      simp only [l1, hput, Option.bind_eq_bind, Option.bind_some, r1]
    · rw [r3, regionWith_append, l3, hreg1]
      ext x
      constructor
      · rintro ((hx | ⟨hl, hx, hn⟩) | ⟨⟨f, hf, h1, h2⟩, hn⟩)
        · exact .inl hx
        · exact .inr ⟨⟨e, List.mem_cons_self, hl, hx⟩, hn⟩
        · exact .inr ⟨⟨f, List.mem_cons_of_mem _ hf, h1, h2⟩, hn⟩
      · rintro (hx | ⟨⟨f, hf, h1, h2⟩, hn⟩)
        · exact .inl (.inl hx)
        · rcases List.mem_cons.1 hf with rfl | hf
          · exact .inl (.inr ⟨h1, h2, hn⟩)
          · exact .inr ⟨⟨f, hf, h1, h2⟩, hn⟩

theorem OrdOps.Models.subtractRaw (h : S.Models v) (hd : sp.dim = D + 1) {o : Oracle α} (ho : o.Fair) {a : Coll α T} {b : Coll α U}
    (ha : a.ambient = sp) (hb : b.ambient = sp) (hac : Cells v D sp a.spxs) (hbv : ∀ t ∈ b.spxs, t.Valid v D sp) :
    ∃ r, S.subtractRaw o a b = some r ∧ r.ambient = sp ∧ Cells v D sp r.spxs ∧
      ∀ label, regionWith v D r.simplexes label = regionWith v D a.simplexes label \ regionOf v D b.spxs := by
  obtain ⟨r, r1, r2, r3⟩ := h.subtractLoop hd ho hbv (es := a.simplexes) (i := 0) (m := []) ⟨by simp, by simp, by simp, by simp⟩ hac (by simp [regionOf])
  refine ⟨⟨sp, r⟩, ?_, rfl, r2, fun label => ?_⟩
  · unfold OrdOps.subtractRaw
    have hcs : commonSpace a.ambient b.ambient = some sp := by rw [ha, hb]; simp [commonSpace, assertThat]
    simp only [hcs, r1, Option.bind_eq_bind, Option.bind_some]
  · rw [r3]
    simp [regionWith]

omit [IsStrictOrderedRing K] in
theorem regionOf_eq_iUnion (a : Coll α T) : regionOf v D a.spxs = ⋃ label, regionWith v D a.simplexes label := by
  ext x
  simp only [regionOf, regionWith, Coll.spxs, Set.mem_setOf_eq, List.mem_map, Set.mem_iUnion]
  constructor
  · rintro ⟨_, ⟨e, he, rfl⟩, hx⟩; exact ⟨e.2, e, he, rfl, hx⟩
  · rintro ⟨_, e, he, rfl, hx⟩; exact ⟨_, ⟨e, he, rfl⟩, hx⟩

/-! ## Intersection -/

theorem OrdOps.Models.meetLoop (h : S.Models v) (hd : sp.dim = D + 1) {o : Oracle α} (ho : o.Fair) {es : List ((Simplex α × T) × (Simplex α × U))}
    (hv : ∀ e ∈ es, e.1.1.Valid v D sp ∧ e.2.1.Valid v D sp)
    (hp : es.Pairwise fun e f => Disjoint (openSimplex K (e.1.1.verts v D) ∩ openSimplex K (e.2.1.verts v D)) (openSimplex K (f.1.1.verts v D) ∩ openSimplex K (f.2.1.verts v D))) :
    ∀ {i : Nat} {m : List (Simplex α × (T × U))} (_ : Cells v D sp (m.map Prod.fst))
      (_ : ∀ e ∈ es, Disjoint (regionOf v D (m.map Prod.fst)) (openSimplex K (e.1.1.verts v D) ∩ openSimplex K (e.2.1.verts v D))),
    ∃ r, S.meetLoop o i es m = some r ∧ Cells v D sp (r.map Prod.fst) ∧
      ∀ label, regionWith v D r label = regionWith v D m label ∪
        {x | ∃ e ∈ es, (e.1.2, e.2.2) = label ∧ x ∈ openSimplex K (e.1.1.verts v D) ∩ openSimplex K (e.2.1.verts v D)} := by
  induction es with
  | nil =>
    intro i m hm _
    exact ⟨m, rfl, hm, fun label => by simp⟩
  | cons e es ih =>
    intro i m hm hdis
    rw [List.pairwise_cons] at hp
    obtain ⟨c, c1, c2⟩ := h.venn hd (ho.sub i) (hv e List.mem_cons_self).1 (hv e List.mem_cons_self).2
    set l := (c.subsetByLabel .middle).spxs with hl
    have hlc : Cells v D sp l := c2.cells.filter (subsetByLabel_sublist _ _)
    have hlr := c2.middle
    rw [← hl] at hlr
    have hml : Cells v D sp (m.map Prod.fst ++ l) := hm.append hlc (by rw [hlr]; exact hdis e List.mem_cons_self)
    have hput := h.putAll hd (e.1.2, e.2.2) hml
    have hfst : (m ++ l.map fun s => (s, (e.1.2, e.2.2))).map Prod.fst = m.map Prod.fst ++ l := by
      rw [List.map_append, List.map_map]; congr 1; exact List.map_id l
    obtain ⟨r, r1, r2, r3⟩ := ih (fun a ha => hv a (List.mem_cons_of_mem _ ha)) hp.2 (i := i + 1) (m := m ++ l.map fun s => (s, (e.1.2, e.2.2)))
      (by rw [hfst]; exact hml) (by
        intro f hf
        rw [hfst, regionOf_append, hlr]
        exact Set.disjoint_union_left.2 ⟨hdis f (List.mem_cons_of_mem _ hf), hp.1 f hf⟩)
    refine ⟨r, ?_, r2, fun label => ?_⟩
    · rw [OrdOps.meetLoop]
      simp only [c1, ← hl, hput, Option.bind_eq_bind, Option.bind_some, r1]
    · rw [r3, regionWith_append, hlr]
      ext x
      simp only [Set.mem_union, Set.mem_setOf_eq, List.mem_cons, or_and_right, exists_or, exists_eq_left, or_assoc]

theorem OrdOps.Models.intersectionRaw (h : S.Models v) (hd : sp.dim = D + 1) {o : Oracle α} (ho : o.Fair) {a : Coll α T} {b : Coll α U}
    (ha : a.ambient = sp) (hb : b.ambient = sp) (hac : Cells v D sp a.spxs) (hbc : Cells v D sp b.spxs) :
    ∃ r, S.intersectionRaw o a b = some r ∧ r.ambient = sp ∧ Cells v D sp r.spxs ∧
      ∀ label, regionWith v D r.simplexes label = regionWith v D a.simplexes label.1 ∩ regionWith v D b.simplexes label.2 := by
  have hmem : ∀ e, e ∈ a.simplexes.flatMap (fun x => b.simplexes.map fun y => (x, y)) ↔ e.1 ∈ a.simplexes ∧ e.2 ∈ b.simplexes := by
    rintro ⟨x, y⟩
    simp only [List.mem_flatMap, List.mem_map, Prod.mk.injEq]
    constructor
    · rintro ⟨x', hx, y', hy, rfl, rfl⟩; exact ⟨hx, hy⟩
    · rintro ⟨hx, hy⟩; exact ⟨x, hx, y, hy, rfl, rfl⟩
  have hda : a.simplexes.Pairwise fun e f => Disjoint (openSimplex K (e.1.verts v D)) (openSimplex K (f.1.verts v D)) := by
    have hn := hac.nodup
    unfold Coll.spxs at hn
    rw [List.map_map, List.Nodup, List.pairwise_map] at hn
    refine hn.imp_of_mem ?_
    intro e f he hf hne
    rw [Set.disjoint_left]
    intro x h1 h2
    exact hne (hac.disj e.1 (List.mem_map_of_mem he) f.1 (List.mem_map_of_mem hf) x h1 h2)
  have hdb : b.simplexes.Pairwise fun e f => Disjoint (openSimplex K (e.1.verts v D)) (openSimplex K (f.1.verts v D)) := by
    have hn := hbc.nodup
    unfold Coll.spxs at hn
    rw [List.map_map, List.Nodup, List.pairwise_map] at hn
    refine hn.imp_of_mem ?_
    intro e f he hf hne
    rw [Set.disjoint_left]
    intro x h1 h2
    exact hne (hbc.disj e.1 (List.mem_map_of_mem he) f.1 (List.mem_map_of_mem hf) x h1 h2)
  obtain ⟨r, r1, r2, r3⟩ := h.meetLoop hd ho (es := a.simplexes.flatMap fun x => b.simplexes.map fun y => (x, y))
    (fun e he => ⟨hac.valid _ (List.mem_map_of_mem ((hmem e).1 he).1), hbc.valid _ (List.mem_map_of_mem ((hmem e).1 he).2)⟩) (by
      rw [List.pairwise_flatMap]
      constructor
      · intro x hx
        rw [List.pairwise_map]
        exact hdb.imp fun hh => hh.mono Set.inter_subset_right Set.inter_subset_right
      · refine hda.imp ?_
        intro x y hxy p hp q hq
        obtain ⟨_, -, rfl⟩ := List.mem_map.1 hp
        obtain ⟨_, -, rfl⟩ := List.mem_map.1 hq
        exact hxy.mono Set.inter_subset_left Set.inter_subset_left)
    (i := 0) (m := []) ⟨by simp, by simp, by simp, by simp⟩ (by simp [regionOf])
  refine ⟨⟨sp, r⟩, ?_, rfl, r2, fun label => ?_⟩
  · unfold OrdOps.intersectionRaw
    have hcs : commonSpace a.ambient b.ambient = some sp := by rw [ha, hb]; simp [commonSpace, assertThat]
    simp only [hcs, r1, Option.bind_eq_bind, Option.bind_some]
  · rw [r3]
    ext x
    simp only [regionWith, Set.mem_union, Set.mem_setOf_eq, Set.mem_inter_iff, hmem]
    constructor
    · rintro (⟨e, he, -⟩ | ⟨e, ⟨h1, h2⟩, rfl, h3, h4⟩)
      · simp at he
      · exact ⟨⟨_, h1, rfl, h3⟩, ⟨_, h2, rfl, h4⟩⟩
    · rintro ⟨⟨e, h1, h2, h3⟩, ⟨f, h4, h5, h6⟩⟩
      exact .inr ⟨(e, f), ⟨h1, h4⟩, Prod.ext h2 h5, h3, h6⟩

/-! ## Union -/

theorem OrdOps.Models.unionRaw (h : S.Models v) (hd : sp.dim = D + 1) {o : Oracle α} (ho : o.Fair) {a b : Coll α Unit}
    (ha : a.ambient = sp) (hb : b.ambient = sp) (hac : Cells v D sp a.spxs) (hbc : Cells v D sp b.spxs) :
    ∃ r, S.unionRaw o a b = some r ∧ r.ambient = sp ∧ Cells v D sp r.spxs ∧ regionOf v D r.spxs = regionOf v D a.spxs ∪ regionOf v D b.spxs := by
  obtain ⟨d, d1, d2, d3, d4⟩ := h.subtractRaw hd ho hb ha hbc hac.valid
  have hdr : regionOf v D d.spxs = regionOf v D b.spxs \ regionOf v D a.spxs := by
    rw [regionOf_eq_iUnion, regionOf_eq_iUnion b, Set.iUnion_diff]
    exact Set.iUnion_congr d4
  have hcells : Cells v D sp (d.spxs ++ a.spxs) := d3.append hac (by rw [hdr]; exact Set.disjoint_sdiff_left)
  obtain ⟨r, r1, r2, r3, r4⟩ := hashInsert_set (P := fun t : Simplex α => t.Valid v D sp) (key := Simplex.verts v D) (eq := S.simplexEq)
    (fun x y hx hy => h.simplexEq_verts hd hx hy) hcells.valid
  have hsp : (⟨sp, r.map fun s => (s, ())⟩ : Coll α Unit).spxs = r := by unfold Coll.spxs; rw [List.map_map]; exact List.map_id r
  refine ⟨⟨sp, r.map fun s => (s, ())⟩, ?_, rfl, ?_, ?_⟩
  · unfold OrdOps.unionRaw
    have hcs : commonSpace a.ambient b.ambient = some sp := by rw [ha, hb]; simp [commonSpace, assertThat]
    simp only [hcs, d1, r1, Option.bind_eq_bind, Option.bind_some]
  · rw [hsp]
    exact Cells.of_keys r2 r3 ⟨hcells.valid, hcells.ne, hcells.disj⟩
  · rw [hsp, regionOf_keys r4, regionOf_append, hdr, Set.diff_union_self, Set.union_comm]

/-! ## The closure of a partial complex -/

theorem hashGet_eq (h : S.Models v) (hd : sp.dim = D + 1) {m : List (Simplex α × T)} (hm : ∀ e ∈ m, e.1.Valid v D sp) (hn : (m.map fun e => e.1.verts v D).Nodup)
    {x : Simplex α} (hx : x.Valid v D sp) :
    ∃ r, hashGet S.simplexEq x m = some r ∧ ∀ y, r = some y ↔ ∃ e ∈ m, e.1.verts v D = x.verts v D ∧ e.2 = y := by
  induction m with
  | nil => exact ⟨none, rfl, by simp⟩
  | cons e m ih =>
    rw [List.map_cons, List.nodup_cons] at hn
    obtain ⟨r, r1, r2⟩ := ih (fun a ha => hm a (List.mem_cons_of_mem _ ha)) hn.2
    rw [hashGet]
    simp only [h.simplexEq_verts hd hx (hm e List.mem_cons_self), Option.bind_eq_bind, Option.bind_some]
    by_cases hk : x.verts v D = e.1.verts v D
    · simp only [hk, decide_true, if_true]
      refine ⟨_, rfl, fun y => ?_⟩
      constructor
      · intro hy; exact ⟨e, List.mem_cons_self, rfl, Option.some.inj hy⟩
      · rintro ⟨f, hf, h1, rfl⟩
        rcases List.mem_cons.1 hf with rfl | hf
        · rfl
        · exact absurd (h1 ▸ List.mem_map_of_mem (f := fun e : Simplex α × T => e.1.verts v D) hf) hn.1
    · simp only [hk, decide_false]
      refine ⟨r, r1, fun y => ?_⟩
      rw [r2]
      constructor
      · rintro ⟨f, hf, h1⟩; exact ⟨f, List.mem_cons_of_mem _ hf, h1⟩
      · rintro ⟨f, hf, h1, h2⟩
        rcases List.mem_cons.1 hf with rfl | hf
        · exact absurd h1.symm hk
        · exact ⟨f, hf, h1, h2⟩

theorem OrdOps.Models.closure (h : S.Models v) (hd : sp.dim = D + 1) {o : Oracle α} (ho : o.Fair) {c : Coll α T} (ha : c.ambient = sp)
    (hv : ∀ s ∈ c.spxs, s.Valid v D sp) (hn : (c.spxs.map (Simplex.verts v D)).Nodup) (hne : ∀ s ∈ c.spxs, s.points ≠ []) :
    ∃ k, S.closure o c = some k ∧ k.ambient = sp ∧ (∀ e ∈ k.labelled, e.1.Valid v D sp ∧ e.1.points ≠ []) ∧ (k.labelled.map fun e => e.1.verts v D).Nodup ∧
      (∀ A, A ∈ k.labelled.map (fun e => e.1.verts v D) ↔ A.Nonempty ∧ ∃ s ∈ c.spxs, A ⊆ s.verts v D) ∧
      (∀ e ∈ k.labelled, ∀ y, e.2 = some y ↔ ∃ f ∈ c.simplexes, f.1.verts v D = e.1.verts v D ∧ f.2 = y) ∧
      (Meet v D c.spxs → Meet v D (k.labelled.map Prod.fst)) := by
  obtain ⟨set, s1, s2, s3, s4⟩ := h.faceSet hd (start := []) (l := c.spxs) (by simp) (by simp) hv
  have hset : (do
      let subs ← c.simplexes.mapM fun e => S.subSimplicesNotNull e.1
      subs.flatten.foldlM (hashInsert S.simplexEq) []) = some set := by
    unfold OrdOps.faceSet Coll.spxs at s1
    rw [List.mapM_map] at s1
    exact s1
  have hperm := ho.simplices [] set
  set l := o.simplices [] set with hl
  have hcv : ∀ e ∈ c.simplexes, e.1.Valid v D sp := fun e he => hv _ (List.mem_map_of_mem he)
  have hcn : (c.simplexes.map fun e => e.1.verts v D).Nodup := by unfold Coll.spxs at hn; rwa [List.map_map] at hn
  obtain ⟨G, g1, g2⟩ := mapM_choose (L := l) (f := fun s => do
      let y ← hashGet S.simplexEq s c.simplexes
      some (s, y)) (Q := fun (s : Simplex α) (r : Simplex α × Option T) => r.1 = s ∧
        ∀ y, r.2 = some y ↔ ∃ f ∈ c.simplexes, f.1.verts v D = s.verts v D ∧ f.2 = y) (by
    intro s hs
    obtain ⟨r, r1, r2⟩ := hashGet_eq h hd hcv hcn (s2 s (hperm.mem_iff.1 hs))
    exact ⟨(s, r), by simp only [r1, Option.bind_eq_bind, Option.bind_some], rfl, r2⟩)
  have hfst : (l.map G).map Prod.fst = l := by
    rw [List.map_map]
    conv_rhs => rw [← List.map_id l]
    exact List.map_congr_left fun s hs => (g2 s hs).1
  have hkeys : ((l.map G).map fun e => e.1.verts v D) = l.map (Simplex.verts v D) := by
    conv_rhs => rw [← hfst]
    rw [List.map_map, List.map_map, List.map_map]; rfl
  have hmk : ∀ A, A ∈ (l.map G).map (fun e => e.1.verts v D) ↔ A.Nonempty ∧ ∃ s ∈ c.spxs, A ⊆ s.verts v D := by
    intro A
    rw [hkeys, (hperm.map _).mem_iff, s4]
    constructor
    · rintro (h1 | ⟨s, hs, h1, h2⟩)
      · simp at h1
      · exact ⟨h2, s, hs, h1⟩
    · rintro ⟨h2, s, hs, h1⟩; exact .inr ⟨s, hs, h1, h2⟩
  have hmv : ∀ e ∈ l.map G, e.1.Valid v D sp := by
    intro e he
    obtain ⟨s, hs, rfl⟩ := List.mem_map.1 he
    rw [(g2 s hs).1]
    exact s2 s (hperm.mem_iff.1 hs)
  have hmn : ((l.map G).map fun e => e.1.verts v D).Nodup := by rw [hkeys, (hperm.map _).nodup_iff]; exact s3
  have hmne : ∀ e ∈ l.map G, e.1.points ≠ [] := by
    intro e he h0
    have := ((hmk (e.1.verts v D)).1 (List.mem_map_of_mem (f := fun e : Simplex α × Option T => e.1.verts v D) he)).1
    rw [Simplex.verts, h0] at this
    simp [vertsOf] at this
  have hnew := h.newLabelled hd hmv hmn
  rw [if_neg (by rintro ⟨e, he, h0⟩; exact hmne e he h0), if_pos (by
    intro s hs X hX hXn
    rw [hfst] at hs ⊢
    rw [← hkeys, hmk]
    obtain ⟨-, t, ht, h1⟩ := (hmk (s.verts v D)).1 (by rw [hkeys]; exact List.mem_map_of_mem hs)
    exact ⟨hXn, t, ht, hX.trans h1⟩)] at hnew
  obtain ⟨k, k1, k2, k3, k4⟩ := hnew
  refine ⟨k, ?_, k2, ?_, ?_, ?_, ?_, ?_⟩
  · unfold OrdOps.closure
    simp only [Option.bind_eq_bind] at hset g1 ⊢
    rw [← Option.bind_assoc, hset]
    simp only [Option.bind_some, ← hl, g1, ha, k1, Except.toOption]
  · rw [k3]; exact fun e he => ⟨hmv e he, hmne e he⟩
  · rw [k3]; exact hmn
  · rw [k3]; exact hmk
  · rw [k3]
    intro e he y
    obtain ⟨s, hs, rfl⟩ := List.mem_map.1 he
    rw [(g2 s hs).2, (g2 s hs).1]
  · rw [k3]
    intro hmeet e he f hf
    have hk : ∀ e ∈ (l.map G).map Prod.fst, ∃ s ∈ c.spxs, e.verts v D ⊆ s.verts v D := by
      intro e he
      obtain ⟨a, ha, rfl⟩ := List.mem_map.1 he
      exact ((hmk _).1 (List.mem_map_of_mem (f := fun e : Simplex α × Option T => e.1.verts v D) ha)).2
    obtain ⟨s, hs, h1⟩ := hk e he
    obtain ⟨t, ht, h2⟩ := hk f hf
    set I : Finset (Finset (Fin D → K)) := (c.spxs.map (Simplex.verts v D)).toFinset with hI
    have hmI : ∀ T, T ∈ I ↔ ∃ s ∈ c.spxs, s.verts v D = T := by intro T; rw [hI, List.mem_toFinset, List.mem_map]
    refine Proper.meet (I := I) ?_ ?_ ((hmI _).2 ⟨s, hs, rfl⟩) ((hmI _).2 ⟨t, ht, rfl⟩) h1 h2
    · intro T hT T' hT' x h1 h2
      obtain ⟨s, hs, rfl⟩ := (hmI T).1 hT
      obtain ⟨t, ht, rfl⟩ := (hmI T').1 hT'
      rw [Finset.coe_inter, ← hmeet s hs t ht]
      exact ⟨h1, h2⟩
    · intro T hT
      obtain ⟨s, hs, rfl⟩ := (hmI T).1 hT
      exact (hv s hs).points.verts_indep

end

end Verif.Geometry
