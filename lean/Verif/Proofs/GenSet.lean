import Verif.Model.Iso
import Verif.Proofs.TableClosure
import Mathlib.Data.List.GetD

/-! The generating-set search. -/

namespace Verif.Table

variable {G : VGrp}

theorem mulMany_lt (l : List Nat) (h : ∀ x ∈ l, x < G.g.n) : G.g.mulMany l < G.g.n := by
  have : l = (l.attach.map fun x => G.el x.1 (h x.1 x.2)).map VGrp.Elem.idx := by
    rw [List.map_map]
    conv_lhs => rw [← List.attach_map_subtype_val l]
    rfl
  rw [this, mulMany_spec]
  exact idx_lt _

theorem mulMany_concat (l : List Nat) (h : ∀ x ∈ l, x < G.g.n) (g : Nat) (hg : g < G.g.n) :
    G.g.mulMany (l ++ [g]) = G.g.m (G.g.mulMany l) g := by
  cases l with
  | nil => exact (G.ok.one_mul g hg).symm
  | cons a t => simp [Grp.mulMany, List.foldl_append]

/-- word invariant of the search -/
structure WInv (G : Grp) (gens : List Nat) (st : GState) : Prop where
  sub : ∀ x ∈ st.sg, x < G.n
  miss : ∀ x, x ∈ st.missing ↔ x < G.n ∧ x ∉ st.sg
  len : st.words.length = G.n
  one : G.ident ∈ st.sg
  oneWord : st.words.getD G.ident [] = []
  word : ∀ x ∈ st.sg, (∀ i ∈ st.words.getD x [], i < gens.length) ∧ G.mulMany ((st.words.getD x []).map fun i => gens.getD i 0) = x
  genLt : ∀ i, i < gens.length → gens.getD i 0 < G.n
  genWord : ∀ i, i < gens.length → gens.getD i 0 ∈ st.sg → st.words.getD (gens.getD i 0) [] = [i]

theorem getD_set_self {α : Type} (l : List α) (i : Nat) (a d : α) (h : i < l.length) : (l.set i a).getD i d = a := by
  rw [List.getD_eq_getElem _ _ (by simpa using h)]; simp

theorem getD_set_ne {α : Type} (l : List α) (i j : Nat) (a d : α) (h : i ≠ j) : (l.set i a).getD j d = l.getD j d := by
  unfold List.getD
  rw [List.getElem?_set_ne h]

theorem visit_inv (gens : List Nat) (st : GState) (h : WInv G.g gens st) (x g : Nat) (hx : x ∈ st.sg) (hg : g < gens.length)
    (hu : G.g.m x (gens.getD g 0) ∉ st.sg → ∀ i, i < gens.length → gens.getD i 0 = G.g.m x (gens.getD g 0) → i = g ∧ x = G.g.ident) :
    WInv G.g gens (st.visit x (G.g.m x (gens.getD g 0)) g) ∧
    (∀ z, z ∈ (st.visit x (G.g.m x (gens.getD g 0)) g).sg ↔ z ∈ st.sg ∨ z = G.g.m x (gens.getD g 0)) ∧
    (∀ z, z ∈ (st.visit x (G.g.m x (gens.getD g 0)) g).bd ↔ z ∈ st.bd ∨ (z ∉ st.sg ∧ z = G.g.m x (gens.getD g 0))) := by
  unfold GState.visit
  set y := G.g.m x (gens.getD g 0) with hy
  have hyn : y < G.g.n := G.ok.mul_lt _ _ (h.sub x hx) (h.genLt g hg)
  split
  · rename_i hmem
    refine ⟨h, ?_, ?_⟩
    · intro z; constructor
      · tauto
      · rintro (hz | rfl) <;> assumption
    · intro z; constructor
      · tauto
      · rintro (hz | ⟨h1, rfl⟩)
        · exact hz
        · exact absurd hmem h1
  · rename_i hmem
    refine ⟨?_, ?_, ?_⟩
    · have hne : ∀ z ∈ st.sg, y ≠ z := fun z hz e => hmem (e ▸ hz)
      refine ⟨?_, ?_, ?_, ?_, ?_, ?_, h.genLt, ?_⟩
      · intro z hz
        rcases Finset.mem_insert.1 hz with rfl | hz
        · exact hyn
        · exact h.sub z hz
      · intro z
        simp only [Finset.mem_erase, Finset.mem_insert, h.miss z]
        tauto
      · simp [h.len]
      · exact Finset.mem_insert_of_mem h.one
      · simp only
        rw [getD_set_ne _ _ _ _ _ (hne _ h.one), h.oneWord]
      · intro z hz
        simp only
        rcases Finset.mem_insert.1 hz with rfl | hz
        · rw [getD_set_self _ _ _ _ (by rw [h.len]; exact hyn)]
          obtain ⟨h1, h2⟩ := h.word x hx
          refine ⟨?_, ?_⟩
          · intro i hi
            rw [List.mem_append, List.mem_singleton] at hi
            rcases hi with hi | rfl
            · exact h1 i hi
            · exact hg
          · rw [List.map_append, List.map_singleton, mulMany_concat, h2]
            · intro z hz
              obtain ⟨i, hi, rfl⟩ := List.mem_map.1 hz
              exact h.genLt i (h1 i hi)
            · exact h.genLt g hg
        · rw [getD_set_ne _ _ _ _ _ (hne _ hz)]
          exact h.word z hz
      · intro i hi hz
        simp only
        by_cases e : y = gens.getD i 0
        · obtain ⟨rfl, rfl⟩ := hu hmem i hi e.symm
          rw [← e, getD_set_self _ _ _ _ (by rw [h.len]; exact hyn), h.oneWord]
          rfl
        · rw [getD_set_ne _ _ _ _ _ e]
          rcases Finset.mem_insert.1 hz with hz | hz
          · exact absurd hz.symm e
          · exact h.genWord i hi hz
    · intro z; simp only [Finset.mem_insert]; tauto
    · intro z; simp only [List.mem_append, List.mem_singleton]
      constructor
      · rintro (hz | rfl)
        · exact Or.inl hz
        · exact Or.inr ⟨hmem, rfl⟩
      · tauto

/-- a sequence of visits -/
def visits (G : Grp) (gens : List Nat) (l : List (Nat × Nat)) (st : GState) : GState :=
  l.foldl (fun st p => st.visit p.1 (G.m p.1 (gens.getD p.2 0)) p.2) st

theorem visits_inv (gens : List Nat) (l : List (Nat × Nat)) (st : GState) (h : WInv G.g gens st)
    (hl : ∀ p ∈ l, p.1 ∈ st.sg ∧ p.2 < gens.length ∧
      (G.g.m p.1 (gens.getD p.2 0) ∉ st.sg → ∀ i, i < gens.length → gens.getD i 0 = G.g.m p.1 (gens.getD p.2 0) → i = p.2 ∧ p.1 = G.g.ident)) :
    WInv G.g gens (visits G.g gens l st) ∧
    (∀ z, z ∈ (visits G.g gens l st).sg ↔ z ∈ st.sg ∨ ∃ p ∈ l, z = G.g.m p.1 (gens.getD p.2 0)) ∧
    (∀ z, z ∈ (visits G.g gens l st).bd ↔ z ∈ st.bd ∨ (z ∉ st.sg ∧ ∃ p ∈ l, z = G.g.m p.1 (gens.getD p.2 0))) := by
  induction l generalizing st with
  | nil => exact ⟨h, by simp [visits], by simp [visits]⟩
  | cons p t ih =>
    obtain ⟨hp1, hp2, hp3⟩ := hl p (by simp)
    obtain ⟨h1, h2, h3⟩ := visit_inv gens st h p.1 p.2 hp1 hp2 hp3
    obtain ⟨h4, h5, h6⟩ := ih _ h1 (by
      intro q hq
      obtain ⟨a, b, c⟩ := hl q (by simp [hq])
      refine ⟨(h2 _).2 (Or.inl a), b, ?_⟩
      intro hn
      exact c (fun hh => hn ((h2 _).2 (Or.inl hh))))
    refine ⟨h4, ?_, ?_⟩
    · intro z
      change z ∈ (visits G.g gens t _).sg ↔ _
      rw [h5, h2]; simp only [List.mem_cons, exists_eq_or_imp]; tauto
    · intro z
      change z ∈ (visits G.g gens t _).bd ↔ _
      rw [h6, h3, h2]; simp only [List.mem_cons, exists_eq_or_imp]
      constructor
      · tauto
      · rintro (h | ⟨h, h' | h'⟩)
        · tauto
        · tauto
        · by_cases hz : z = G.g.m p.1 (gens.getD p.2 0) <;> tauto

theorem visitAll_eq (gens : List Nat) (st : GState) (x : Nat) :
    st.visitAll G.g gens x = visits G.g gens ((List.range gens.length).map fun i => (x, i)) st := by
  unfold GState.visitAll visits
  have : gens.zipIdx = (List.range gens.length).map fun i => (gens.getD i 0, i) := by
    apply List.ext_getElem (by simp)
    intro i h1 h2
    have hi : i < gens.length := by simpa using h1
    simp [List.getElem?_eq_getElem hi]
  rw [this, List.foldl_map, List.foldl_map]

theorem round_eq (gens : List Nat) (b : List Nat) (st : GState) :
    b.foldl (GState.visitAll G.g gens) st = visits G.g gens (b.flatMap fun x => (List.range gens.length).map fun i => (x, i)) st := by
  induction b generalizing st with
  | nil => rfl
  | cons a t ih =>
    rw [List.foldl_cons, ih, visitAll_eq]
    simp [visits, List.foldl_append]

theorem genFirst_eq (gens : List Nat) (newG : Nat) (st : GState) :
    genFirst G.g newG gens.length st =
      visits G.g (gens ++ [newG]) ((st.sg.sort (· ≤ ·)).map fun s => (s, gens.length)) { st with bd := [] } := by
  unfold genFirst visits
  rw [List.foldl_map]
  congr
  funext st s
  have : (gens ++ [newG]).getD gens.length 0 = newG := by simp
  rw [this]

/-- right multiplication by the generators stays inside -/
def ClosedUnder (G : Grp) (gens : List Nat) (sg : Finset Nat) : Prop := ∀ x ∈ sg, ∀ i, i < gens.length → G.m x (gens.getD i 0) ∈ sg

theorem genInner_spec (gens : List Nat) : ∀ (k : Nat) (st : GState), G.g.n - st.sg.card < k → WInv G.g gens st →
    (∀ i, i < gens.length → gens.getD i 0 ∈ st.sg) → (∀ x ∈ st.bd, x ∈ st.sg) →
    (∀ x ∈ st.sg, x ∉ st.bd → ∀ i, i < gens.length → G.g.m x (gens.getD i 0) ∈ st.sg) →
    ∃ st', genInner G.g gens st = some st' ∧ WInv G.g gens st' ∧ st.sg ⊆ st'.sg ∧ ClosedUnder G.g gens st'.sg := by
  intro k
  induction k with
  | zero => intro st h; omega
  | succ k ih =>
    intro st hk hinv hg hb hcl
    rw [genInner]
    split
    · rename_i hnil
      exact ⟨st, rfl, hinv, Finset.Subset.refl _, fun x hx i hi => hcl x hx (by simp [hnil]) i hi⟩
    · rename_i hnil
      rw [round_eq]
      have hinv0 : WInv G.g gens { st with bd := [] } := ⟨hinv.sub, hinv.miss, hinv.len, hinv.one, hinv.oneWord, hinv.word, hinv.genLt, hinv.genWord⟩
      obtain ⟨h1, h2, h3⟩ := visits_inv gens (st.bd.flatMap fun x => (List.range gens.length).map fun i => (x, i)) _ hinv0 (by
        intro p hp
        rw [List.mem_flatMap] at hp
        obtain ⟨x, hx, hp⟩ := hp
        rw [List.mem_map] at hp
        obtain ⟨i, hi, rfl⟩ := hp
        rw [List.mem_range] at hi
        refine ⟨hb x hx, hi, ?_⟩
        intro hn j hj e
        exact absurd (hg j hj) (by rw [e]; exact hn))
      have hmem : ∀ z, (∃ p ∈ (st.bd.flatMap fun x => (List.range gens.length).map fun i => (x, i)), z = G.g.m p.1 (gens.getD p.2 0)) ↔
          ∃ x ∈ st.bd, ∃ i, i < gens.length ∧ z = G.g.m x (gens.getD i 0) := by
        intro z
        constructor
        · rintro ⟨p, hp, rfl⟩
          rw [List.mem_flatMap] at hp
          obtain ⟨x, hx, hp⟩ := hp
          rw [List.mem_map] at hp
          obtain ⟨i, hi, rfl⟩ := hp
          exact ⟨x, hx, i, List.mem_range.1 hi, rfl⟩
        · rintro ⟨x, hx, i, hi, rfl⟩
          exact ⟨(x, i), List.mem_flatMap.2 ⟨x, hx, List.mem_map.2 ⟨i, List.mem_range.2 hi, rfl⟩⟩, rfl⟩
      generalize hst : visits G.g gens (st.bd.flatMap fun x => (List.range gens.length).map fun i => (x, i)) { st with bd := [] } = st1 at *
      simp only [hmem, List.not_mem_nil, false_or] at h2 h3
      have hss : st.sg ⊆ st1.sg := fun x hx => (h2 x).2 (Or.inl hx)
      by_cases hb1 : st1.bd = []
      · refine ⟨st1, by rw [genInner, if_pos hb1], h1, hss, ?_⟩
        have hsg : ∀ z, z ∈ st1.sg → z ∈ st.sg := by
          intro z hz
          by_contra hn
          rcases (h2 z).1 hz with h | h
          · exact hn h
          · have := (h3 z).2 ⟨hn, h⟩
            rw [hb1] at this; simp at this
        intro x hx i hi
        have hx' := hsg x hx
        by_cases hxb : x ∈ st.bd
        · exact (h2 _).2 (Or.inr ⟨x, hxb, i, hi, rfl⟩)
        · exact hss (hcl x hx' hxb i hi)
      · obtain ⟨y, hy⟩ := List.exists_mem_of_ne_nil _ hb1
        have hy' := (h3 y).1 hy
        have hlt : st.sg.card < st1.sg.card := Finset.card_lt_card ⟨hss, fun hh => hy'.1 (hh ((h2 y).2 (Or.inr hy'.2)))⟩
        have hle : st1.sg.card ≤ G.g.n := by
          have := Finset.card_le_card (fun x hx => Finset.mem_range.2 (h1.sub x hx) : st1.sg ⊆ Finset.range G.g.n)
          simpa using this
        obtain ⟨st', g1, g2, g3, g4⟩ := ih st1 (by omega) h1 (fun i hi => hss (hg i hi)) (by
          intro x hx
          exact (h2 x).2 (Or.inr ((h3 x).1 hx).2)) (by
          intro x hx hxb i hi
          have hxs : x ∈ st.sg := by
            by_contra hn
            rcases (h2 x).1 hx with h | h
            · exact hn h
            · exact hxb ((h3 x).2 ⟨hn, h⟩)
          by_cases hxb' : x ∈ st.bd
          · exact (h2 _).2 (Or.inr ⟨x, hxb', i, hi, rfl⟩)
          · exact hss (hcl x hxs hxb' i hi))
        exact ⟨st', g1, g2, hss.trans g3, g4⟩

/-- the set found is the subgroup generated by the generators -/
theorem denotes_closure (gens : List Nat) (st : GState) (h : WInv G.g gens st) (hcl : ClosedUnder G.g gens st.sg)  :
    G.Denotes st.sg (Subgroup.closure {x : G.Elem | x.idx ∈ gens}) := by
  refine ⟨h.sub, fun x => ⟨?_, ?_⟩⟩
  · intro hx
    obtain ⟨h1, h2⟩ := h.word x.idx hx
    have key : ∀ w : List Nat, (∀ i ∈ w, i < gens.length) → ∀ x : G.Elem, G.g.mulMany (w.map fun i => gens.getD i 0) = x.idx →
        x ∈ Subgroup.closure {x : G.Elem | x.idx ∈ gens} := by
      intro w
      induction w using List.reverseRecOn with
      | nil =>
        intro _ x e
        have : x = 1 := Elem.ext e.symm
        rw [this]; exact one_mem _
      | append_singleton w i ih =>
        intro hw x e
        rw [List.map_append, List.map_singleton] at e
        have hlt : ∀ y ∈ w.map fun i => gens.getD i 0, y < G.g.n := by
          intro y hy
          obtain ⟨j, hj, rfl⟩ := List.mem_map.1 hy
          exact h.genLt j (hw j (by simp [hj]))
        have hi : i < gens.length := hw i (by simp)
        rw [mulMany_concat _ hlt _ (h.genLt i hi)] at e
        have : x = G.el _ (mulMany_lt _ hlt) * G.el _ (h.genLt i hi) := Elem.ext e.symm
        rw [this]
        apply mul_mem
        · exact ih (fun j hj => hw j (by simp [hj])) _ rfl
        · apply Subgroup.subset_closure
          change gens.getD i 0 ∈ gens
          rw [List.getD_eq_getElem _ _ hi]; exact List.getElem_mem _
    exact key _ h1 x h2
  · intro hx
    refine closure_subset_of_right_closed {x : G.Elem | x.idx ∈ gens} {x : G.Elem | x.idx ∈ st.sg} (Set.toFinite _) h.one ?_ x hx
    intro y hy g hg
    obtain ⟨i, hi, e⟩ := List.getElem_of_mem hg
    have := hcl y.idx hy i hi
    rw [List.getD_eq_getElem _ _ hi, e] at this
    exact this

/-- everything the outer loop knows between two generators -/
structure OInv (G : Grp) (gens : List Nat) (st : GState) : Prop where
  w : WInv G gens st
  gen : ∀ i, i < gens.length → gens.getD i 0 ∈ st.sg
  cl : ClosedUnder G gens st.sg
  pow : 2 ^ gens.length ≤ st.sg.card

theorem outer_step (gens : List Nat) (st : GState) (h : OInv G.g gens st) (newG : Nat) (hn : newG ∈ st.missing) :
    ∃ st', genInner G.g (gens ++ [newG]) (genFirst G.g newG gens.length st) = some st' ∧ OInv G.g (gens ++ [newG]) st' ∧
      st.sg.card < st'.sg.card := by
  obtain ⟨hnl, hns⟩ := (h.w.miss newG).1 hn
  have hlen : (gens ++ [newG]).length = gens.length + 1 := by simp
  have hold : ∀ i, i < gens.length → (gens ++ [newG]).getD i 0 = gens.getD i 0 := by
    intro i hi
    rw [List.getD_eq_getElem _ _ (by omega), List.getD_eq_getElem _ _ hi, List.getElem_append_left hi]
  have hnew : (gens ++ [newG]).getD gens.length 0 = newG := by simp
  have hinv0 : WInv G.g (gens ++ [newG]) { st with bd := [] } := by
    refine ⟨h.w.sub, h.w.miss, h.w.len, h.w.one, h.w.oneWord, ?_, ?_, ?_⟩
    · intro x hx
      obtain ⟨h1, h2⟩ := h.w.word x hx
      refine ⟨fun i hi => by have := h1 i hi; omega, ?_⟩
      refine Eq.trans ?_ h2
      congr 1
      apply List.map_congr_left
      intro i hi
      exact hold i (h1 i hi)
    · intro i hi
      rw [hlen] at hi
      by_cases e : i = gens.length
      · subst e; rw [hnew]; exact hnl
      · rw [hold i (by omega)]; exact h.w.genLt i (by omega)
    · intro i hi hm
      rw [hlen] at hi
      by_cases e : i = gens.length
      · subst e; rw [hnew] at hm; exact absurd hm hns
      · rw [hold i (by omega)] at hm ⊢; exact h.w.genWord i (by omega) hm
  obtain ⟨h1, h2, h3⟩ := visits_inv (gens ++ [newG]) ((st.sg.sort (· ≤ ·)).map fun s => (s, gens.length)) _ hinv0 (by
    intro p hp
    obtain ⟨s, hs, rfl⟩ := List.mem_map.1 hp
    rw [Finset.mem_sort] at hs
    refine ⟨hs, by simp, ?_⟩
    simp only [hnew]
    intro hnot i hi e
    rw [hlen] at hi
    by_cases e' : i = gens.length
    · refine ⟨e', ?_⟩
      subst e'
      rw [hnew] at e
      have : G.el s (h.w.sub s hs) * G.el newG hnl = G.el newG hnl := Elem.ext e.symm
      have := mul_eq_right.1 this
      exact congrArg VGrp.Elem.idx this
    · rw [hold i (by omega)] at e
      exact absurd (h.gen i (by omega)) (by rw [e]; exact hnot))
  rw [genFirst_eq]
  have hmem : ∀ z, (∃ p ∈ (st.sg.sort (· ≤ ·)).map (fun s => (s, gens.length)), z = G.g.m p.1 ((gens ++ [newG]).getD p.2 0)) ↔
      ∃ s ∈ st.sg, z = G.g.m s newG := by
    intro z
    constructor
    · rintro ⟨p, hp, rfl⟩
      obtain ⟨s, hs, rfl⟩ := List.mem_map.1 hp
      exact ⟨s, (Finset.mem_sort _).1 hs, by rw [hnew]⟩
    · rintro ⟨s, hs, rfl⟩
      exact ⟨(s, gens.length), List.mem_map.2 ⟨s, (Finset.mem_sort _).2 hs, rfl⟩, by rw [hnew]⟩
  generalize hst : visits G.g (gens ++ [newG]) ((st.sg.sort (· ≤ ·)).map fun s => (s, gens.length)) { st with bd := [] } = st1 at *
  simp only [hmem, List.not_mem_nil, false_or] at h2 h3
  have hss : st.sg ⊆ st1.sg := fun x hx => (h2 x).2 (Or.inl hx)
  have hgen1 : ∀ i, i < (gens ++ [newG]).length → (gens ++ [newG]).getD i 0 ∈ st1.sg := by
    intro i hi
    rw [hlen] at hi
    by_cases e : i = gens.length
    · subst e; rw [hnew]
      exact (h2 _).2 (Or.inr ⟨G.g.ident, h.w.one, (G.ok.one_mul _ hnl).symm⟩)
    · rw [hold i (by omega)]; exact hss (h.gen i (by omega))
  obtain ⟨st', g1, g2, g3, g4⟩ := genInner_spec (gens ++ [newG]) _ st1 (Nat.lt_succ_self _) h1 hgen1
    (fun x hx => (h2 x).2 (Or.inr ((h3 x).1 hx).2)) (by
      intro x hx hxb i hi
      rw [hlen] at hi
      have hxs : x ∈ st.sg := by
        by_contra hn
        rcases (h2 x).1 hx with h | h
        · exact hn h
        · exact hxb ((h3 x).2 ⟨hn, h⟩)
      by_cases e : i = gens.length
      · subst e; rw [hnew]; exact (h2 _).2 (Or.inr ⟨x, hxs, rfl⟩)
      · rw [hold i (by omega)]; exact hss (h.cl x hxs i (by omega)))
  -- the coset sg * newG is disjoint from sg
  have hden := denotes_closure gens st h.w h.cl
  have hdisj : Disjoint st.sg (st.sg.image fun s => G.g.m s newG) := by
    rw [Finset.disjoint_left]
    intro a ha hb
    obtain ⟨s, hs, e⟩ := Finset.mem_image.1 hb
    have hsc := (hden.2 (G.el s (h.w.sub s hs))).1 hs
    have hac := (hden.2 (G.el a (h.w.sub a ha))).1 ha
    have e' : G.el s (h.w.sub s hs) * G.el newG hnl = G.el a (h.w.sub a ha) := Elem.ext e
    have : G.el newG hnl = (G.el s (h.w.sub s hs))⁻¹ * G.el a (h.w.sub a ha) := by rw [← e']; simp
    have hmemc : G.el newG hnl ∈ Subgroup.closure {x : G.Elem | x.idx ∈ gens} := by
      rw [this]; exact mul_mem (inv_mem hsc) hac
    exact hns ((hden.2 _).2 hmemc)
  have hcard : (st.sg.image fun s => G.g.m s newG).card = st.sg.card := by
    apply Finset.card_image_of_injOn
    intro a ha b hb e
    have e' : G.el a (h.w.sub a ha) * G.el newG hnl = G.el b (h.w.sub b hb) * G.el newG hnl := Elem.ext e
    exact congrArg VGrp.Elem.idx (mul_right_cancel e')
  have hsub : st.sg ∪ (st.sg.image fun s => G.g.m s newG) ⊆ st1.sg := by
    intro z hz
    rcases Finset.mem_union.1 hz with hz | hz
    · exact hss hz
    · obtain ⟨s, hs, rfl⟩ := Finset.mem_image.1 hz
      exact (h2 _).2 (Or.inr ⟨s, hs, rfl⟩)
  have hc2 : 2 * st.sg.card ≤ st'.sg.card := by
    have := Finset.card_le_card (hsub.trans g3)
    rw [Finset.card_union_of_disjoint hdisj, hcard] at this
    omega
  have hpos : 0 < st.sg.card := Finset.card_pos.2 ⟨_, h.w.one⟩
  refine ⟨st', g1, ⟨g2, fun i hi => g3 (hgen1 i hi), g4, ?_⟩, by omega⟩
  rw [hlen, pow_succ]
  have := h.pow
  omega

/-- what every generating set built by the API satisfies -/
structure GenOk (G : VGrp) (s : GenSet) : Prop where
  genLt : ∀ i, i < s.gens.length → s.gens.getD i 0 < G.g.n
  len : s.words.length = G.g.n
  oneWord : s.words.getD G.g.ident [] = []
  word : ∀ x, x < G.g.n → (∀ i ∈ s.words.getD x [], i < s.gens.length) ∧ G.g.mulMany ((s.words.getD x []).map fun i => s.gens.getD i 0) = x
  genWord : ∀ i, i < s.gens.length → s.words.getD (s.gens.getD i 0) [] = [i]
  pow : 2 ^ s.gens.length ≤ G.g.n

theorem genOuter_spec (o : Oracle) (maxSize : Option Nat) : ∀ (k : Nat) (gens : List Nat) (st : GState), G.g.n - st.sg.card < k →
    OInv G.g gens st → (∀ m, maxSize = some m → gens.length ≤ m) →
    ∃ r, genOuter G.g o maxSize gens st = some r ∧
      (∀ s, r = some s → GenOk G s ∧ ∀ m, maxSize = some m → s.gens.length ≤ m) ∧ (maxSize = none → r.isSome) := by
  intro k
  induction k with
  | zero => intro gens st h; omega
  | succ k ih =>
    intro gens st hk hinv hm
    have hsubr : st.sg ⊆ Finset.range G.g.n := fun x hx => Finset.mem_range.2 (hinv.w.sub x hx)
    rw [genOuter]
    split
    · rename_i hlt
      split
      · rename_i hmx
        exact ⟨none, rfl, by simp, by rw [hmx]; simp⟩
      · rename_i hmx
        have hne : st.missing.Nonempty := by
          by_contra hne
          rw [Finset.not_nonempty_iff_eq_empty] at hne
          have : Finset.range G.g.n ⊆ st.sg := by
            intro x hx
            by_contra hn
            have := (hinv.w.miss x).2 ⟨Finset.mem_range.1 hx, hn⟩
            rw [hne] at this; simp at this
          have := Finset.card_le_card this
          rw [Finset.card_range] at this; omega
        rw [if_neg hne.ne_empty]
        obtain ⟨st', h1, h2, h3⟩ := outer_step gens st hinv _ (o.mem gens.length st.missing hne)
        dsimp only
        rw [h1]
        exact ih _ _ (by omega) h2 (by
          intro m e
          have := hm m e
          have : gens.length ≠ m := fun e' => hmx (by rw [e, e'])
          simp; omega)
    · rename_i hge
      have hall : ∀ x, x < G.g.n → x ∈ st.sg := by
        intro x hx
        have := Finset.eq_of_subset_of_card_le hsubr (by rw [Finset.card_range]; omega)
        rw [this]; exact Finset.mem_range.2 hx
      have hcard : st.sg.card ≤ G.g.n := by have := Finset.card_le_card hsubr; rwa [Finset.card_range] at this
      refine ⟨_, rfl, ?_, fun _ => rfl⟩
      rintro s e
      cases e
      refine ⟨⟨hinv.w.genLt, hinv.w.len, hinv.w.oneWord, fun x hx => hinv.w.word x (hall x hx),
        fun i hi => hinv.w.genWord i hi (hinv.gen i hi), hinv.pow.trans hcard⟩, hm⟩

theorem tryFind_spec (o : Oracle) (maxSize : Option Nat) : ∃ r, tryFindGeneratingSet G.g o maxSize = some r ∧
      (∀ s, r = some s → GenOk G s ∧ ∀ m, maxSize = some m → s.gens.length ≤ m) ∧ (maxSize = none → r.isSome) := by
  unfold tryFindGeneratingSet
  refine genOuter_spec o maxSize _ [] _ (Nat.lt_succ_self _) ?_ (by simp)
  have h1 : ∀ x, (List.replicate G.g.n ([] : List Nat)).getD x [] = [] := by
    intro x
    by_cases hx : x < G.g.n
    · rw [List.getD_eq_getElem _ _ (by simpa using hx)]; simp
    · rw [List.getD_eq_default _ _ (by simpa using hx)]
  refine ⟨⟨?_, ?_, by simp, by simp, h1 _, ?_, by simp, by simp⟩, by simp, ?_, by simp⟩
  · intro x hx; rw [Finset.mem_singleton.1 hx]; exact G.ok.ident_lt
  · intro x; simp; tauto
  · intro x hx
    have hx := Finset.mem_singleton.1 hx
    subst hx
    simp only [h1]
    exact ⟨by simp, rfl⟩
  · intro x _ i hi; simp at hi

theorem generatingSet_spec (o : Oracle) : ∃ s, generatingSet G.g o = some s ∧ GenOk G s := by
  obtain ⟨r, h1, h2, h3⟩ := tryFind_spec (G := G) o none
  obtain ⟨s, rfl⟩ := Option.isSome_iff_exists.1 (h3 rfl)
  exact ⟨s, by unfold generatingSet; rw [h1]; rfl, (h2 s rfl).1⟩

end Verif.Table
