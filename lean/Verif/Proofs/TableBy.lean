import Verif.Proofs.TableSubgroups

/-! Translating the loop invariant `ClassesOf` into the specification `PartitionBy`. -/

namespace Verif.Table

variable {G : VGrp}

theorem IsPart.classesOf {n : Nat} {cls : Nat → Finset Nat} {s : PState} (h : IsPart n s)
    (hsub : ∀ x, x < n → ∀ y ∈ cls x, y < n)
    (hr : ∀ x y, x < n → y < n → (s.lookup.getD x 0 = s.lookup.getD y 0 ↔ y ∈ cls x)) : ClassesOf n cls s := by
  have look_lt : ∀ x, x < n → s.lookup.getD x 0 < s.classes.length := by
    intro x hx
    obtain ⟨c, h1, -⟩ := h.look x hx
    exact (List.getElem?_eq_some_iff.1 h1).1
  have proj : ∀ x, x < n → s.project x = cls x := by
    intro x hx
    unfold PState.project
    rw [List.getD_eq_getElem _ _ (look_lt x hx)]
    ext y
    constructor
    · intro hy
      have hyn := (h.cover y).1 ⟨_, List.getElem_mem (look_lt x hx), hy⟩
      exact (hr x y hx hyn).1 ((h.mem_iff y hyn _ (look_lt x hx)).1 hy).symm
    · intro hy
      have hyn := hsub x hx y hy
      exact (h.mem_iff y hyn _ (look_lt x hx)).2 ((hr x y hx hyn).2 hy).symm
  refine ⟨h.len, look_lt, proj, ?_, h.disj⟩
  intro c hc
  obtain ⟨x, hx⟩ := h.nonempty c hc
  have hxn := (h.cover x).1 ⟨c, hc, hx⟩
  refine ⟨x, hxn, ?_⟩
  rw [← proj x hxn]
  obtain ⟨k, hk, rfl⟩ := List.getElem_of_mem hc
  have := (h.mem_iff x hxn k hk).1 hx
  unfold PState.project
  rw [this, List.getD_eq_getElem _ _ hk]

theorem ClassesOf.by {cls : Nat → Finset Nat} {s : PState} (h : ClassesOf G.g.n cls s) (r : G.Elem → G.Elem → Prop)
    (hself : ∀ x, x < G.g.n → x ∈ cls x) (hsub : ∀ x, x < G.g.n → ∀ y ∈ cls x, y < G.g.n)
    (heq : ∀ x, x < G.g.n → ∀ y ∈ cls x, cls y = cls x) (hr : ∀ x y : G.Elem, y.idx ∈ cls x.idx ↔ r x y) : G.PartitionBy s r :=
  ⟨h.isPart hself hsub, fun x y => by rw [h.lookup_eq_iff heq hself _ _ (idx_lt x) (idx_lt y)]; exact hr x y⟩

theorem cacheOk_of (h : G.ConjCacheOk) : CacheOk G.g := by
  intro s hs
  obtain ⟨h1, h2⟩ := h s hs
  refine h1.classesOf (fun x hx y hy => conjCls_lt x hx y hy) ?_
  intro x y hx hy
  rw [show (s.lookup.getD x 0 = s.lookup.getD y 0 ↔ IsConj (G.el x hx) (G.el y hy)) from h2 (G.el x hx) (G.el y hy)]
  exact (mem_conjCls' (G.el x hx) (G.el y hy)).symm

theorem by_conj {s : PState} (h : ClassesOf G.g.n (conjCls G.g) s) : G.PartitionBy s IsConj :=
  h.by IsConj (fun x hx => conjCls_self x hx) (fun x hx => conjCls_lt x hx) (fun x hx => conjCls_eq x hx) mem_conjCls'

theorem mem_leftCls' {S : Finset Nat} {H : Subgroup G.Elem} (hH : G.Denotes S H) (x y : G.Elem) : y.idx ∈ leftCls G.g S x.idx ↔ x⁻¹ * y ∈ H := by
  rw [mem_leftCls S H hH]
  constructor
  · rintro ⟨z, h1, h2⟩; rw [idx_inj] at h1; subst h1; exact h2
  · intro h; exact ⟨y, rfl, h⟩

theorem mem_rightCls' {S : Finset Nat} {H : Subgroup G.Elem} (hH : G.Denotes S H) (x y : G.Elem) : y.idx ∈ rightCls G.g S x.idx ↔ y * x⁻¹ ∈ H := by
  rw [mem_rightCls S H hH]
  constructor
  · rintro ⟨z, h1, h2⟩; rw [idx_inj] at h1; subst h1; exact h2
  · intro h; exact ⟨y, rfl, h⟩

theorem by_left {S : Finset Nat} {H : Subgroup G.Elem} (hH : G.Denotes S H) {s : PState} (h : ClassesOf G.g.n (leftCls G.g S) s) :
    G.PartitionBy s (fun x y => x⁻¹ * y ∈ H) :=
  let f := leftCls_facts S H hH
  h.by _ f.1 f.2.1 f.2.2 (mem_leftCls' hH)

theorem by_right {S : Finset Nat} {H : Subgroup G.Elem} (hH : G.Denotes S H) {s : PState} (h : ClassesOf G.g.n (rightCls G.g S) s) :
    G.PartitionBy s (fun x y => y * x⁻¹ ∈ H) :=
  let f := rightCls_facts S H hH
  h.by _ f.1 f.2.1 f.2.2 (mem_rightCls' hH)

/-- total size = sum of the block sizes -/
theorem IsPart.card_sum {n : Nat} {s : PState} (h : IsPart n s) : (s.classes.map Finset.card).sum = n := by
  have key : ∀ l : List (Finset Nat), l.Pairwise Disjoint → (l.map Finset.card).sum = (l.foldr (· ∪ ·) ∅).card := by
    intro l hl
    induction l with
    | nil => rfl
    | cons c t ih =>
      rw [List.pairwise_cons] at hl
      rw [List.map_cons, List.sum_cons, ih hl.2, List.foldr_cons, Finset.card_union_of_disjoint]
      clear ih
      rw [Finset.disjoint_left]
      intro x hx hmem
      have : ∀ t : List (Finset Nat), x ∈ t.foldr (· ∪ ·) ∅ → ∃ d ∈ t, x ∈ d := by
        intro t
        induction t with
        | nil => intro h; simp at h
        | cons d t ih =>
          intro h
          rw [List.foldr_cons, Finset.mem_union] at h
          rcases h with h | h
          · exact ⟨d, by simp, h⟩
          · obtain ⟨e, h1, h2⟩ := ih h
            exact ⟨e, by simp [h1], h2⟩
      obtain ⟨d, h1, h2⟩ := this t hmem
      exact Finset.disjoint_left.1 (hl.1 d h1) hx h2
  rw [key _ h.disj]
  have : s.classes.foldr (· ∪ ·) ∅ = Finset.range n := by
    ext x
    have hm : ∀ t : List (Finset Nat), x ∈ t.foldr (· ∪ ·) ∅ ↔ ∃ d ∈ t, x ∈ d := by
      intro t
      induction t with
      | nil => simp
      | cons d t ih => rw [List.foldr_cons, Finset.mem_union, ih]; simp
    rw [hm, h.cover, Finset.mem_range]
  rw [this, Finset.card_range]

end Verif.Table
