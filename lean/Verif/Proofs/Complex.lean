import Verif.Model.Complex
import Verif.Proofs.HullBuilt
import Verif.Props.Geometry

/-! # Simplicial complexes: the constructor -/

namespace Verif.Geometry

open Classical Verif.Rings

noncomputable local instance (priority := 5000) decPt20 (K : Type) (d : Nat) : DecidableEq (Fin d → K) := fun a b => Classical.propDecidable (a = b)

section
variable {α K T U : Type} [Field K] [LinearOrder K] [IsStrictOrderedRing K] {S : OrdOps α} {v : α → K} {D : Nat} {sp : Space}

/-! ## The faces -/

omit [IsStrictOrderedRing K] in
theorem exists_sublist_verts {l : List (Vec α)} {A : Finset (Fin D → K)} (hA : A ⊆ vertsOf v D l) : ∃ P : List (Vec α), P.Sublist l ∧ vertsOf v D P = A := by
  refine ⟨l.filter fun p => decide (p.val v D ∈ A), List.filter_sublist, ?_⟩
  ext x
  rw [mem_vertsOf]
  constructor
  · rintro ⟨p, hp, rfl⟩
    simpa using (List.mem_filter.1 hp).2
  · intro hx
    obtain ⟨p, hp, rfl⟩ := mem_vertsOf.1 (hA hx)
    exact ⟨p, List.mem_filter.2 ⟨hp, by simpa using hx⟩, rfl⟩

omit [LinearOrder K] [IsStrictOrderedRing K] in
theorem vertsOf_sublist {l P : List (Vec α)} (h : P.Sublist l) : vertsOf v D P ⊆ vertsOf v D l := by
  intro x hx
  obtain ⟨p, hp, rfl⟩ := mem_vertsOf.1 hx
  exact mem_vertsOf.2 ⟨p, h.mem hp, rfl⟩

omit [LinearOrder K] [IsStrictOrderedRing K] in
theorem vertsOf_eq_empty {P : List (Vec α)} : vertsOf v D P = ∅ ↔ P = [] := by
  constructor
  · intro h
    cases P with
    | nil => rfl
    | cons p P =>
      have : p.val v D ∈ vertsOf v D (p :: P) := mem_vertsOf.2 ⟨p, by simp, rfl⟩
      rw [h] at this; simp at this
  · rintro rfl; rfl

theorem OrdOps.Models.facesNotNull (h : S.Models v) (hd : sp.dim = D + 1) {s : Simplex α} (hs : s.Valid v D sp) :
    ∃ l, S.subSimplicesNotNull s = some l ∧ (∀ t ∈ l, t.Valid v D sp) ∧
      ∀ A, A ∈ l.map (Simplex.verts v D) ↔ A ⊆ s.verts v D ∧ A.Nonempty := by
  obtain ⟨-, ⟨l, h1, h2, h3⟩, -⟩ := C119_sub_simplices h hd hs
  refine ⟨l, h1, h2, fun A => ?_⟩
  constructor
  · intro hA
    obtain ⟨t, ht, rfl⟩ := List.mem_map.1 hA
    obtain ⟨e1, e2⟩ := (h3 t.points).1 (List.mem_map_of_mem ht)
    exact ⟨vertsOf_sublist e1, Finset.nonempty_iff_ne_empty.2 fun e => e2 (vertsOf_eq_empty.1 e)⟩
  · rintro ⟨hA, hn⟩
    obtain ⟨P, hP, rfl⟩ := exists_sublist_verts hA
    have : P ∈ l.map Simplex.points := (h3 P).2 ⟨hP, fun e => by subst e; simp [vertsOf] at hn⟩
    obtain ⟨t, ht, rfl⟩ := List.mem_map.1 this
    exact List.mem_map.2 ⟨t, ht, rfl⟩

theorem OrdOps.Models.properFacesNotNull (h : S.Models v) (hd : sp.dim = D + 1) {s : Simplex α} (hs : s.Valid v D sp) :
    ∃ l, S.properSubSimplicesNotNull s = some l ∧ (∀ t ∈ l, t.Valid v D sp) ∧
      ∀ A, A ∈ l.map (Simplex.verts v D) ↔ A ⊂ s.verts v D ∧ A.Nonempty := by
  obtain ⟨-, -, ⟨l, h1, h2, h3⟩⟩ := C119_sub_simplices h hd hs
  refine ⟨l, h1, h2, fun A => ?_⟩
  constructor
  · intro hA
    obtain ⟨t, ht, rfl⟩ := List.mem_map.1 hA
    obtain ⟨e1, e2, e3⟩ := (h3 t.points).1 (List.mem_map_of_mem ht)
    refine ⟨(vertsOf_sublist e1).ssubset_of_ne fun e => e3 (e1.eq_of_length ?_), Finset.nonempty_iff_ne_empty.2 fun e => e2 (vertsOf_eq_empty.1 e)⟩
    rw [← (h2 t ht).points.verts_card, ← hs.points.verts_card]
    exact congrArg Finset.card e
  · rintro ⟨hA, hn⟩
    obtain ⟨P, hP, rfl⟩ := exists_sublist_verts hA.1
    have : P ∈ l.map Simplex.points := (h3 P).2 ⟨hP, fun e => by subst e; simp [vertsOf] at hn, fun e => by subst e; exact hA.2 (Finset.Subset.refl _)⟩
    obtain ⟨t, ht, rfl⟩ := List.mem_map.1 this
    exact List.mem_map.2 ⟨t, ht, rfl⟩

/-! ## The loop over the faces -/

/-- the cells after the pairs `ps` -/
structure CellsInv (v : α → K) (D : Nat) (sp : Space) (m : List (Simplex α × T)) (ps : List (Simplex α × Simplex α)) (es : List (Cell α T)) : Prop where
  map : (es.map fun e => (e.spx, e.label)) = m
  valid : ∀ e ∈ es, ∀ t ∈ e.inv, t.Valid v D sp
  nodup : ∀ e ∈ es, (e.inv.map (Simplex.verts v D)).Nodup
  mem : ∀ e ∈ es, ∀ A, A ∈ e.inv.map (Simplex.verts v D) ↔ ∃ p ∈ ps, p.1.verts v D = e.spx.verts v D ∧ p.2.verts v D = A

omit [IsStrictOrderedRing K] in
theorem CellsInv.skip {m : List (Simplex α × T)} {ps : List (Simplex α × Simplex α)} {es : List (Cell α T)} (hi : CellsInv v D sp m ps es)
    {p : Simplex α × Simplex α} (hp : p.1.verts v D ∉ m.map fun e => e.1.verts v D) : CellsInv v D sp m (ps ++ [p]) es := by
  refine ⟨hi.map, hi.valid, hi.nodup, fun e he A => ?_⟩
  rw [hi.mem e he]
  constructor
  · rintro ⟨q, hq, e1⟩
    exact ⟨q, List.mem_append_left _ hq, e1⟩
  · rintro ⟨q, hq, e1⟩
    rcases List.mem_append.1 hq with hq | hq
    · exact ⟨q, hq, e1⟩
    · rw [List.mem_singleton] at hq
      subst hq
      refine absurd ?_ hp
      rw [e1.1, ← hi.map, List.map_map]
      exact List.mem_map.2 ⟨e, he, rfl⟩

theorem OrdOps.Models.addInv (h : S.Models v) (hd : sp.dim = D + 1) {m : List (Simplex α × T)} (hm : ∀ e ∈ m, e.1.Valid v D sp)
    (hn : (m.map fun e => e.1.verts v D).Nodup) {ps : List (Simplex α × Simplex α)} {es : List (Cell α T)} (hi : CellsInv v D sp m ps es)
    {p : Simplex α × Simplex α} (h1 : p.1.Valid v D sp) (h2 : p.2.Valid v D sp) :
    if p.1.verts v D ∈ m.map (fun e => e.1.verts v D) then ∃ es', S.addInv p.1 p.2 es = some (some es') ∧ CellsInv v D sp m (ps ++ [p]) es'
      else S.addInv p.1 p.2 es = some none := by
  induction es generalizing m with
  | nil => rw [← hi.map]; simp [OrdOps.addInv]
  | cons e es ih =>
    obtain ⟨hmap, hv, hnd, hmem⟩ := hi
    rw [List.map_cons] at hmap
    subst hmap
    rw [List.map_cons, List.nodup_cons] at hn
    have heq := h.simplexEq_verts hd h1 (hm _ (List.mem_cons_self))
    have hi' : CellsInv v D sp (es.map fun e => (e.spx, e.label)) ps es :=
      ⟨rfl, fun a ha => hv a (List.mem_cons_of_mem _ ha), fun a ha => hnd a (List.mem_cons_of_mem _ ha), fun a ha => hmem a (List.mem_cons_of_mem _ ha)⟩
    by_cases hk : p.1.verts v D = e.spx.verts v D
    · rw [if_pos (by rw [List.map_cons, hk]; exact List.mem_cons_self)]
      obtain ⟨r, hr⟩ : ∃ r, hashInsert S.simplexEq e.inv p.2 = some r := ⟨_, hashInsert_eq (P := fun t : Simplex α => t.Valid v D sp) (key := Simplex.verts v D) (eq := S.simplexEq) (fun x y hx hy => h.simplexEq_verts hd hx hy) h2 (hv e List.mem_cons_self)⟩
      have hr' := hashInsert_eq (P := fun t : Simplex α => t.Valid v D sp) (key := Simplex.verts v D) (eq := S.simplexEq) (fun x y hx hy => h.simplexEq_verts hd hx hy) h2 (hv e List.mem_cons_self)
      rw [hr] at hr'
      have hr'' := Option.some.inj hr'
      refine ⟨{ e with inv := r } :: es, ?_, ?_⟩
      · unfold OrdOps.addInv
        simp only [heq, hk, decide_true, Option.bind_eq_bind, Option.bind_some, if_true, hr]
      · have hsk := hi'.skip (p := p) (by rw [hk]; exact hn.1)
        refine ⟨rfl, fun a ha => ?_, fun a ha => ?_, fun a ha => ?_⟩
        · rcases List.mem_cons.1 ha with rfl | ha
          · intro t ht
            rw [hr''] at ht
            split_ifs at ht
            · exact hv e List.mem_cons_self t ht
            · rcases List.mem_append.1 ht with ht | ht
              · exact hv e List.mem_cons_self t ht
              · rw [List.mem_singleton] at ht; subst ht; exact h2
          · exact hsk.valid a ha
        · rcases List.mem_cons.1 ha with rfl | ha
          · show (r.map _).Nodup
            rw [hr'']
            split_ifs with hc
            · exact hnd e List.mem_cons_self
            · rw [List.map_append, List.nodup_append]
              refine ⟨hnd e List.mem_cons_self, by simp, ?_⟩
              intro x hx y hy
              simp only [List.map_cons, List.map_nil, List.mem_singleton] at hy
              subst hy
              exact fun e => hc (e ▸ hx)
          · exact hsk.nodup a ha
        · rcases List.mem_cons.1 ha with rfl | ha
          · intro A
            have hA : A ∈ r.map (Simplex.verts v D) ↔ A ∈ e.inv.map (Simplex.verts v D) ∨ A = p.2.verts v D := by
              rw [hr'']
              split_ifs with hc
              · constructor
                · exact Or.inl
                · rintro (h | rfl)
                  · exact h
                  · exact hc
              · simp
            show A ∈ r.map _ ↔ _
            rw [hA, hmem e List.mem_cons_self]
            constructor
            · rintro (⟨q, hq, e1⟩ | rfl)
              · exact ⟨q, List.mem_append_left _ hq, e1⟩
              · exact ⟨p, by simp, hk, rfl⟩
            · rintro ⟨q, hq, e1, e2⟩
              rcases List.mem_append.1 hq with hq | hq
              · exact .inl ⟨q, hq, e1, e2⟩
              · rw [List.mem_singleton] at hq; subst hq; exact .inr e2.symm
          · exact hsk.mem a ha
    · have := ih (fun a ha => hm a (List.mem_cons_of_mem _ ha)) hn.2 hi'
      have hiff : p.1.verts v D ∈ ((e.spx, e.label) :: es.map fun e => (e.spx, e.label)).map (fun e => e.1.verts v D) ↔
          p.1.verts v D ∈ (es.map fun e => (e.spx, e.label)).map (fun e => e.1.verts v D) := by
        rw [List.map_cons, List.mem_cons]
        exact ⟨fun h => h.resolve_left hk, .inr⟩
      by_cases hc : p.1.verts v D ∈ (es.map fun e => (e.spx, e.label)).map (fun e => e.1.verts v D)
      · rw [if_pos hc] at this
        rw [if_pos (hiff.2 hc)]
        obtain ⟨es', a1, a2⟩ := this
        refine ⟨e :: es', ?_, ?_⟩
        · unfold OrdOps.addInv
          simp only [heq, hk, decide_false, Option.bind_eq_bind, Option.bind_some, a1, Option.map_some]
          rfl
        · refine ⟨by rw [List.map_cons, a2.map], ?_, ?_, ?_⟩
          · intro a ha
            rcases List.mem_cons.1 ha with rfl | ha
            · exact hv _ List.mem_cons_self
            · exact a2.valid a ha
          · intro a ha
            rcases List.mem_cons.1 ha with rfl | ha
            · exact hnd _ List.mem_cons_self
            · exact a2.nodup a ha
          · intro a ha
            rcases List.mem_cons.1 ha with rfl | ha
            · intro A
              rw [hmem _ List.mem_cons_self]
              constructor
              · rintro ⟨q, hq, e1⟩
                exact ⟨q, List.mem_append_left _ hq, e1⟩
              · rintro ⟨q, hq, e1⟩
                rcases List.mem_append.1 hq with hq | hq
                · exact ⟨q, hq, e1⟩
                · rw [List.mem_singleton] at hq; subst hq; exact absurd e1.1 hk
            · exact a2.mem a ha
      · rw [if_neg hc] at this
        rw [if_neg (fun hh => hc (hiff.1 hh))]
        unfold OrdOps.addInv
        simp only [heq, hk, decide_false, Option.bind_eq_bind, Option.bind_some, this, Option.map_none]
        rfl

theorem OrdOps.Models.invLoop (h : S.Models v) (hd : sp.dim = D + 1) {m : List (Simplex α × T)} (hm : ∀ e ∈ m, e.1.Valid v D sp)
    (hn : (m.map fun e => e.1.verts v D).Nodup) {qs : List (Simplex α × Simplex α)} (hq : ∀ p ∈ qs, p.1.Valid v D sp ∧ p.2.Valid v D sp)
    {ps : List (Simplex α × Simplex α)} {es : List (Cell α T)} (hi : CellsInv v D sp m ps es) :
    if ∀ p ∈ qs, p.1.verts v D ∈ m.map (fun e => e.1.verts v D) then ∃ es', S.invLoop qs es = some (.ok es') ∧ CellsInv v D sp m (ps ++ qs) es'
      else S.invLoop qs es = some (.error .notClosed) := by
  induction qs generalizing ps es with
  | nil => rw [if_pos (by simp)]; exact ⟨es, rfl, by rwa [List.append_nil]⟩
  | cons p qs ih =>
    have := h.addInv hd hm hn hi (hq p List.mem_cons_self).1 (hq p List.mem_cons_self).2
    by_cases hp : p.1.verts v D ∈ m.map (fun e => e.1.verts v D)
    · rw [if_pos hp] at this
      obtain ⟨es', a1, a2⟩ := this
      have := ih (fun a ha => hq a (List.mem_cons_of_mem _ ha)) a2
      have hl : S.invLoop (p :: qs) es = S.invLoop qs es' := by
        rw [OrdOps.invLoop]
        simp only [a1, Option.bind_eq_bind, Option.bind_some]
      rw [hl]
      rw [List.append_assoc, List.singleton_append] at this
      simp only [List.forall_mem_cons, hp, true_and]
      exact this
    · rw [if_neg hp] at this
      rw [if_neg (fun hh => hp (hh p List.mem_cons_self)), OrdOps.invLoop]
      simp only [this, Option.bind_eq_bind, Option.bind_some]

omit [Field K] [LinearOrder K] [IsStrictOrderedRing K] in
theorem nullLoop_eq {m : List (Simplex α × T)} (hm : ∀ e ∈ m, e.1.space = sp) :
    nullLoop sp m = some (if ∃ e ∈ m, e.1.points = [] then .error .null else .ok ()) := by
  induction m with
  | nil => simp [nullLoop]
  | cons e m ih =>
    have h1 := ih fun a ha => hm a (List.mem_cons_of_mem _ ha)
    unfold nullLoop
    simp only [hm e List.mem_cons_self, decide_true, assertThat, if_true, Option.bind_eq_bind, Option.bind_some, h1, List.length_eq_zero_iff]
    by_cases he : e.1.points = []
    · rw [if_pos he, if_pos ⟨e, List.mem_cons_self, he⟩]
    · rw [if_neg he]
      congr 1
      simp [he]

/-- the simplices are closed under nonempty faces -/
def ClosedUnder (v : α → K) (D : Nat) (l : List (Simplex α)) : Prop :=
  ∀ s ∈ l, ∀ A ⊆ s.verts v D, A.Nonempty → A ∈ l.map (Simplex.verts v D)

theorem OrdOps.Models.newLabelled (h : S.Models v) (hd : sp.dim = D + 1) {m : List (Simplex α × T)} (hm : ∀ e ∈ m, e.1.Valid v D sp)
    (hn : (m.map fun e => e.1.verts v D).Nodup) :
    if ∃ e ∈ m, e.1.points = [] then S.newLabelled sp m = some (.error .null) else
    if ClosedUnder v D (m.map Prod.fst) then ∃ c, S.newLabelled sp m = some (.ok c) ∧ c.ambient = sp ∧ c.labelled = m ∧
      ∀ e ∈ c.cells, (∀ t ∈ e.inv, t.Valid v D sp) ∧ (e.inv.map (Simplex.verts v D)).Nodup ∧
        ∀ A, A ∈ e.inv.map (Simplex.verts v D) ↔ e.spx.verts v D ⊂ A ∧ ∃ a ∈ m, a.1.verts v D = A
      else S.newLabelled sp m = some (.error .notClosed) := by
  have hnl := nullLoop_eq (m := m) fun e he => (hm e he).space
  by_cases h0 : ∃ e ∈ m, e.1.points = []
  · rw [if_pos h0] at hnl ⊢
    unfold OrdOps.newLabelled
    simp only [hnl, Option.bind_eq_bind, Option.bind_some]
  rw [if_neg h0] at hnl ⊢
  have hf : ∀ e ∈ m, ∃ l, S.properSubSimplicesNotNull e.1 = some l ∧ (∀ t ∈ l, t.Valid v D sp) ∧
      ∀ A, A ∈ l.map (Simplex.verts v D) ↔ A ⊂ e.1.verts v D ∧ A.Nonempty := fun e he => h.properFacesNotNull hd (hm e he)
  let g : Simplex α × T → List (Simplex α) := fun e => (S.properSubSimplicesNotNull e.1).getD []
  have hg : ∀ e ∈ m, S.properSubSimplicesNotNull e.1 = some (g e) := by
    intro e he
    obtain ⟨l, e1, -⟩ := hf e he
    simp [g, e1]
  have hps : m.mapM (fun e => (S.properSubSimplicesNotNull e.1).map fun l => l.map fun b => (b, e.1)) =
      some (m.map fun e => (g e).map fun b => (b, e.1)) := by
    apply mapM_eq_map
    intro e he
    rw [hg e he]; rfl
  set qs := (m.map fun e => (g e).map fun b => (b, e.1)).flatten with hqs
  have hmq : ∀ p, p ∈ qs ↔ ∃ e ∈ m, ∃ b ∈ g e, (b, e.1) = p := by
    intro p
    rw [hqs]
    simp only [List.mem_flatten, List.mem_map]
    constructor
    · rintro ⟨l, ⟨e, he, rfl⟩, hp⟩
      obtain ⟨b, hb, rfl⟩ := List.mem_map.1 hp
      exact ⟨e, he, b, hb, rfl⟩
    · rintro ⟨e, he, b, hb, rfl⟩
      exact ⟨_, ⟨e, he, rfl⟩, List.mem_map.2 ⟨b, hb, rfl⟩⟩
  have hgv : ∀ e ∈ m, ∀ b ∈ g e, b.Valid v D sp := by
    intro e he b hb
    obtain ⟨l, e1, e2, -⟩ := hf e he
    rw [hg e he] at e1; cases e1
    exact e2 b hb
  have hgm : ∀ e ∈ m, ∀ A, A ∈ (g e).map (Simplex.verts v D) ↔ A ⊂ e.1.verts v D ∧ A.Nonempty := by
    intro e he
    obtain ⟨l, e1, -, e3⟩ := hf e he
    rw [hg e he] at e1; cases e1
    exact e3
  have hloop := h.invLoop hd hm hn (qs := qs) (fun p hp => by
    obtain ⟨e, he, b, hb, rfl⟩ := (hmq p).1 hp
    exact ⟨hgv e he b hb, hm e he⟩) (ps := []) (es := m.map fun e => ⟨e.1, [], e.2⟩)
    ⟨by rw [List.map_map]; exact List.map_id m, fun e he => by obtain ⟨a, -, rfl⟩ := List.mem_map.1 he; simp,
      fun e he => by obtain ⟨a, -, rfl⟩ := List.mem_map.1 he; simp, fun e he => by obtain ⟨a, -, rfl⟩ := List.mem_map.1 he; simp⟩
  have hkey : (m.map Prod.fst).map (Simplex.verts v D) = m.map fun e => e.1.verts v D := by rw [List.map_map]; rfl
  have hiff : (∀ p ∈ qs, p.1.verts v D ∈ m.map (fun e => e.1.verts v D)) ↔ ClosedUnder v D (m.map Prod.fst) := by
    constructor
    · intro hh s hs A hA hne
      obtain ⟨e, he, rfl⟩ := List.mem_map.1 hs
      rw [hkey]
      by_cases hAe : A = e.1.verts v D
      · rw [hAe]; exact List.mem_map_of_mem (f := fun e : Simplex α × T => e.1.verts v D) he
      · obtain ⟨b, hb, rfl⟩ := List.mem_map.1 ((hgm e he A).2 ⟨hA.ssubset_of_ne hAe, hne⟩)
        exact hh (b, e.1) ((hmq _).2 ⟨e, he, b, hb, rfl⟩)
    · intro hh p hp
      obtain ⟨e, he, b, hb, rfl⟩ := (hmq p).1 hp
      have := (hgm e he _).1 (List.mem_map_of_mem hb)
      have := hh e.1 (List.mem_map_of_mem he) _ this.1.1 this.2
      rwa [hkey] at this
  by_cases hc : ClosedUnder v D (m.map Prod.fst)
  · rw [if_pos (hiff.2 hc)] at hloop
    rw [if_pos hc]
    obtain ⟨es, a1, a2⟩ := hloop
    refine ⟨⟨sp, es⟩, ?_, rfl, a2.map, fun e he => ⟨a2.valid e he, a2.nodup e he, fun A => ?_⟩⟩
    · unfold OrdOps.newLabelled
      simp only [hnl, Option.bind_eq_bind, Option.bind_some, hps, ← hqs, a1]
    · rw [a2.mem e he, List.nil_append]
      have hem : (e.spx, e.label) ∈ m := by rw [← a2.map]; exact List.mem_map_of_mem (f := fun e : Cell α T => (e.spx, e.label)) he
      constructor
      · rintro ⟨p, hp, e1, rfl⟩
        obtain ⟨a, ha, b, hb, rfl⟩ := (hmq p).1 hp
        have := ((hgm a ha _).1 (List.mem_map_of_mem hb)).1
        dsimp only at e1 ⊢
        rw [e1] at this
        exact ⟨this, a, ha, rfl⟩
      · rintro ⟨h1, a, ha, rfl⟩
        have hne : (e.spx.verts v D).Nonempty := Finset.nonempty_iff_ne_empty.2 fun he0 => h0 ⟨_, hem, vertsOf_eq_empty.1 he0⟩
        obtain ⟨b, hb, e1⟩ := List.mem_map.1 ((hgm a ha _).2 ⟨h1, hne⟩)
        exact ⟨(b, a.1), (hmq _).2 ⟨a, ha, b, hb, rfl⟩, e1, rfl⟩
  · rw [if_neg (fun hh => hc (hiff.1 hh))] at hloop
    rw [if_neg hc]
    unfold OrdOps.newLabelled
    simp only [hnl, Option.bind_eq_bind, Option.bind_some, hps, ← hqs, hloop]

end

end Verif.Geometry
