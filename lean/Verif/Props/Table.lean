import Verif.Proofs.TableBy
import Mathlib.GroupTheory.Subgroup.Simple

/-!
# Properties C13–C22: composition-table groups

The statements use Mathlib's `Group` structure on `G.Elem` (Spec/Table.lean), i.e. the group read off the tables.
-/

namespace Verif.Table

/-! A concrete non-abelian group (`r^i s^j ↦ i + 3 j` in the dihedral group of order 6) to witness the hypotheses. -/

/-- `D₃` as raw tables -/
def d3 : Grp :=
  { n := 6, ident := 0, inv := [0, 2, 1, 3, 4, 5]
    mul := [[0,1,2,3,4,5],[1,2,0,4,5,3],[2,0,1,5,3,4],[3,5,4,0,2,1],[4,3,5,1,0,2],[5,4,3,2,1,0]] }

/-- `D₃` as a valid group -/
def D3 : VGrp := ⟨d3, by
  obtain ⟨v, h1, h2⟩ := checkCore_spec d3
  apply h2.1
  have : d3.checkCore = some true := by decide +kernel
  rw [this] at h1
  exact (Option.some.inj h1).symm⟩

/-! ## C13 -/

/-- `Group::new` never panics; it is `Ok` (with exactly the given tables) iff the tables are a group, and `Err` otherwise. -/
theorem C13_new_iff_group (n ident : Nat) (inv : List Nat) (mul : List (List Nat)) :
    (IsGroup { n, ident, inv, mul } → Grp.new n ident inv mul = some (some { n, ident, inv, mul })) ∧
    (¬ IsGroup { n, ident, inv, mul } → Grp.new n ident inv mul = some none) := by
  obtain ⟨v, h1, h2⟩ := checkCore_spec { n, ident, inv, mul }
  unfold Grp.new
  simp only [h1]
  cases v with
  | true => exact ⟨fun _ => rfl, fun h => absurd (h2.1 rfl) h⟩
  | false => exact ⟨fun h => by simpa using h2.2 h, fun _ => rfl⟩

/-- The full `check_state` on a group with no cached conjugacy classes: it neither panics nor diverges, and answers `Ok` iff the tables are a group
and the cached `is_abelian`/`is_simple` flags, if present, are right. -/
theorem C13_check_state (G : Grp) (o : Oracle) (ord : Order (Finset Nat × Finset Nat)) (hc : G.conj = none) :
    ∃ v, G.checkState o ord = some v ∧ (v = true ↔ ∃ h : IsGroup G,
      (∀ f, G.isAbelian = some f → (f = true ↔ ∀ x y : (VGrp.mk G h).Elem, x * y = y * x)) ∧
      (∀ f, G.isSimple = some f → (f = true ↔ IsSimpleGroup (VGrp.mk G h).Elem))) := by
  obtain ⟨v, h1, h2⟩ := checkCore_spec G
  unfold Grp.checkState
  rw [h1]
  cases v with
  | false =>
    refine ⟨false, rfl, ?_⟩
    simp only [Bool.false_eq_true, false_iff]
    rintro ⟨h, -⟩
    simpa using h2.2 h
  | true =>
    have hg := h2.1 rfl
    set V : VGrp := ⟨G, hg⟩ with hV
    have hab := computeIsAbelian_spec V
    have hcache : CacheOk V.g := by intro s hs; rw [show V.g.conj = none from hc] at hs; cases hs
    have hsimple : ∃ l, normalSubgroups G o ord = some l ∧ (l.length = 2 ↔ IsSimpleGroup V.Elem) := by
      obtain ⟨r, r1, r2, r3⟩ := subgroupsImpl_spec (normalSubgroups_closureOp (G := V) o hcache) ord
      refine ⟨r, r1, ?_⟩
      -- the keys are exactly the normal subgroups
      have keys : ∀ K : Finset Nat, K ∈ r.map Prod.fst ↔ ∃ N : Subgroup V.Elem, N.Normal ∧ K = idxSet (N : Set V.Elem) := by
        intro K
        constructor
        · intro h
          obtain ⟨p, hp, rfl⟩ := List.mem_map.1 h
          exact ⟨_, Subgroup.normalClosure_normal, ((r2.ok p hp).2).symm⟩
        · rintro ⟨N, hN, rfl⟩
          have := r3 (idxSet (N : Set V.Elem)) ⟨_, (mem_idxSet _ (1 : V.Elem)).2 N.one_mem⟩ (idxSet_lt _)
          have e : V.toSet (idxSet (N : Set V.Elem)) = (N : Set V.Elem) := Set.ext fun x => mem_idxSet _ x
          rwa [e, Subgroup.normalClosure_eq_self] at this
      have hinj : ∀ A B : Subgroup V.Elem, idxSet (A : Set V.Elem) = idxSet (B : Set V.Elem) → A = B := by
        intro A B h
        ext x
        have h1 := mem_idxSet (A : Set V.Elem) x
        have h2 := mem_idxSet (B : Set V.Elem) x
        rw [h] at h1
        exact ⟨fun hx => h2.1 (h1.2 hx), fun hx => h1.1 (h2.2 hx)⟩
      have hlen : r.length = (r.map Prod.fst).toFinset.card := by
        rw [List.toFinset_card_of_nodup r2.nodup, List.length_map]
      constructor
      · intro h
        have hcard : (r.map Prod.fst).toFinset.card = 2 := by rw [← hlen, h]
        have hb : idxSet ((⊥ : Subgroup V.Elem) : Set V.Elem) ∈ (r.map Prod.fst).toFinset :=
          List.mem_toFinset.2 ((keys _).2 ⟨⊥, inferInstance, rfl⟩)
        have ht : idxSet ((⊤ : Subgroup V.Elem) : Set V.Elem) ∈ (r.map Prod.fst).toFinset :=
          List.mem_toFinset.2 ((keys _).2 ⟨⊤, inferInstance, rfl⟩)
        have hne : (⊥ : Subgroup V.Elem) ≠ ⊤ := by
          intro e
          have hone : ∀ K ∈ (r.map Prod.fst).toFinset, K = idxSet ((⊥ : Subgroup V.Elem) : Set V.Elem) := by
            intro K hK
            obtain ⟨N, -, rfl⟩ := (keys K).1 (List.mem_toFinset.1 hK)
            congr 1
            have : N = ⊥ := le_antisymm (by rw [e]; exact le_top) bot_le
            rw [this]
          have : (r.map Prod.fst).toFinset.card ≤ 1 := Finset.card_le_one.2 fun a ha b hb => by rw [hone a ha, hone b hb]
          omega
        have hne' : idxSet ((⊥ : Subgroup V.Elem) : Set V.Elem) ≠ idxSet ((⊤ : Subgroup V.Elem) : Set V.Elem) := fun e => hne (hinj _ _ e)
        have hall : ({idxSet ((⊥ : Subgroup V.Elem) : Set V.Elem), idxSet ((⊤ : Subgroup V.Elem) : Set V.Elem)} : Finset (Finset Nat)) =
            (r.map Prod.fst).toFinset := by
          apply Finset.eq_of_subset_of_card_le
          · intro x hx
            rcases Finset.mem_insert.1 hx with rfl | hx
            · exact hb
            · rw [Finset.mem_singleton.1 hx]; exact ht
          · rw [hcard, Finset.card_pair hne']
        haveI : Nontrivial V.Elem := by
          by_contra hnt
          rw [not_nontrivial_iff_subsingleton] at hnt
          exact hne (Subsingleton.elim _ _)
        refine ⟨?_⟩
        intro N hN
        have := List.mem_toFinset.2 ((keys _).2 ⟨N, hN, rfl⟩)
        rw [← hall, Finset.mem_insert, Finset.mem_singleton] at this
        rcases this with h | h
        · exact Or.inl (hinj _ _ h)
        · exact Or.inr (hinj _ _ h)
      · intro hs
        have hne : (⊥ : Subgroup V.Elem) ≠ ⊤ := bot_ne_top
        have hne' : idxSet ((⊥ : Subgroup V.Elem) : Set V.Elem) ≠ idxSet ((⊤ : Subgroup V.Elem) : Set V.Elem) := fun e => hne (hinj _ _ e)
        have hall : (r.map Prod.fst).toFinset = {idxSet ((⊥ : Subgroup V.Elem) : Set V.Elem), idxSet ((⊤ : Subgroup V.Elem) : Set V.Elem)} := by
          ext K
          rw [List.mem_toFinset, keys, Finset.mem_insert, Finset.mem_singleton]
          constructor
          · rintro ⟨N, hN, rfl⟩
            rcases hN.eq_bot_or_eq_top with rfl | rfl
            · exact Or.inl rfl
            · exact Or.inr rfl
          · rintro (rfl | rfl)
            · exact ⟨⊥, inferInstance, rfl⟩
            · exact ⟨⊤, inferInstance, rfl⟩
        rw [hlen, hall, Finset.card_pair hne']
    obtain ⟨l, hl1, hl2⟩ := hsimple
    have habel : ∀ f, (f == G.computeIsAbelian) = true ↔ (f = true ↔ ∀ x y : V.Elem, x * y = y * x) := by
      intro f
      have hab' : G.computeIsAbelian = true ↔ ∀ x y : V.Elem, x * y = y * x := hab
      rw [← hab', beq_iff_eq]
      cases f <;> cases G.computeIsAbelian <;> simp
    have hsim : ∀ f, ((decide (l.length = 2)) == f) = true ↔ (f = true ↔ IsSimpleGroup V.Elem) := by
      intro f
      rw [← hl2, beq_iff_eq]
      by_cases h2 : l.length = 2 <;> cases f <;> simp [h2]
    rw [hc, hl1]
    rcases ha : G.isAbelian with _ | fa
    · rcases hs : G.isSimple with _ | fs
      · exact ⟨true, rfl, by simp [hg]⟩
      · refine ⟨_, rfl, ?_⟩
        rw [hsim]
        constructor
        · intro h
          exact ⟨hg, by simp, fun f e => by rw [← Option.some.inj e]; exact h⟩
        · rintro ⟨_, -, h⟩
          exact h fs rfl
    · by_cases hfa : (fa == G.computeIsAbelian) = true
      · simp only [hfa]
        rcases hs : G.isSimple with _ | fs
        · refine ⟨true, rfl, ?_⟩
          simp only [true_iff]
          exact ⟨hg, by rintro f ⟨⟩; exact (habel fa).1 hfa, by simp⟩
        · refine ⟨_, rfl, ?_⟩
          rw [hsim]
          constructor
          · intro h
            exact ⟨hg, by rintro f ⟨⟩; exact (habel fa).1 hfa, fun f e => by rw [← Option.some.inj e]; exact h⟩
          · rintro ⟨_, -, h⟩
            exact h fs rfl
      · simp only [Bool.not_eq_true] at hfa
        simp only [hfa]
        refine ⟨false, rfl, ?_⟩
        simp only [Bool.false_eq_true, false_iff]
        rintro ⟨_, h, -⟩
        have := (habel fa).2 (h fa rfl)
        rw [hfa] at this
        cases this

example : IsGroup d3 := D3.ok
/-- a shape error and an axiom failure are both `Err` -/
example : Grp.new 2 0 [0] [[0, 1], [1, 0]] = some none ∧ Grp.new 2 0 [0, 1] [[0, 1], [1, 1]] = some none ∧
    Grp.new 2 0 [0, 1] [[0, 1], [1]] = some none := by decide

/-! ## C14 -/

/-- `order(x)` terminates and is the order of `x` in the group, i.e. the least `k ≥ 1` with `x^k = 1`; it is `Err` iff `x` is out of range. -/
theorem C14_order (G : VGrp) : (∀ x : G.Elem, ∃ k, G.g.order x.idx = some (some k) ∧ 1 ≤ k ∧ x ^ k = 1 ∧ ∀ j, 1 ≤ j → x ^ j = 1 → k ≤ j) ∧
    ∀ x, G.g.n ≤ x → G.g.order x = some none := by
  constructor
  · intro x
    refine ⟨orderOf x, order_spec x, orderOf_pos x, pow_orderOf_eq_one x, ?_⟩
    intro j hj hx
    exact orderOf_le_of_pow_eq_one hj hx
  · intro x hx
    unfold Grp.order
    rw [if_neg (by omega)]

example : ∃ x : D3.Elem, x ≠ 1 := ⟨D3.el 1 (by decide), by decide⟩

/-- `mul_many` is the product in order (and the identity for the empty list) -/
theorem C14_mul_many (G : VGrp) (l : List G.Elem) : G.g.mulMany (l.map VGrp.Elem.idx) = l.prod.idx := mulMany_spec l

/-! ## C15 -/

/-- `direct_product_structure(A,B)` is a group of size `|A||B|`, and `(a,b) ↦ a + b*|A|` is an isomorphism from the product group. -/
theorem C15_direct_product (A B : VGrp) : (directProduct A.g B.g).n = A.g.n * B.g.n ∧ ∃ h : IsGroup (directProduct A.g B.g),
    ∃ e : A.Elem × B.Elem ≃* (VGrp.mk _ h).Elem, ∀ a b, (e (a, b)).idx = a.idx + b.idx * A.g.n := by
  have hm := directProduct_models A B
  have hd : ∀ a b, (a.idx + b.idx * A.g.n < (directProduct A.g B.g).n) ∧ prodDecode A B (a.idx + b.idx * A.g.n) = (a, b) := by
    intro a b
    have hlt : a.idx + b.idx * A.g.n < A.g.n * B.g.n := pair_lt (idx_lt a) (idx_lt b)
    obtain ⟨h1, h2⟩ := prodDecode_idx A B _ hlt
    rw [pair_mod (idx_lt a)] at h1
    rw [pair_div (idx_lt a)] at h2
    exact ⟨hlt, Prod.ext (Elem.ext h1) (Elem.ext h2)⟩
  refine ⟨rfl, hm.isGroup, (hm.equiv fun y => ⟨_, (hd y.1 y.2).1, (hd y.1 y.2).2⟩).symm, ?_⟩
  intro a b
  set e := hm.equiv fun y => ⟨_, (hd y.1 y.2).1, (hd y.1 y.2).2⟩ with he
  have : e.symm (a, b) = VGrp.el (VGrp.mk _ hm.isGroup) _ (hd a b).1 := by
    rw [MulEquiv.symm_apply_eq]
    exact (hd a b).2.symm
  rw [this]
  rfl

/-- `cyclic_group_structure(n)`, `n ≥ 1`, does not panic and is a group of size `n` isomorphic to `ℤ/n` by `k ↦ k`; it is flagged abelian, rightly. -/
theorem C15_cyclic (n : Nat) (hn : 1 ≤ n) : ∃ G h, cyclic n = some G ∧ G.n = n ∧ G.isAbelian = some true ∧ (∀ x y : (VGrp.mk G h).Elem, x * y = y * x) ∧
    ∃ e : (VGrp.mk G h).Elem ≃* Multiplicative (ZMod n), ∀ x, e x = Multiplicative.ofAdd (x.idx : ZMod n) := by
  obtain ⟨G, h1, h2, h3, h4, h5, h6⟩ := cyclic_models n hn
  haveI : NeZero n := ⟨by omega⟩
  have hsurj : ∀ y : Multiplicative (ZMod n), ∃ x, x < G.n ∧ Multiplicative.ofAdd ((if x < n then x else 0 : Nat) : ZMod n) = y := by
    intro y
    refine ⟨(Multiplicative.toAdd y).val, by rw [h2]; exact ZMod.val_lt _, ?_⟩
    rw [if_pos (ZMod.val_lt _), ZMod.natCast_zmod_val]
    rfl
  set e := h6.equiv hsurj
  refine ⟨G, h6.isGroup, h1, h2, h3, ?_, e, ?_⟩
  · intro x y
    apply e.injective
    rw [map_mul, map_mul, mul_comm]
  · intro x
    change Multiplicative.ofAdd ((if x.idx < n then x.idx else 0 : Nat) : ZMod n) = _
    have hx : x.idx < G.n := idx_lt x
    rw [if_pos (by rwa [h2] at hx)]

/-- `trivial_group_structure` has one element; `klein_four_structure` is `ℤ/2 × ℤ/2`. -/
theorem C15_trivial_klein : (∃ G, ∃ _ : IsGroup G, trivialGroup = some G ∧ G.n = 1) ∧
    ∃ G, ∃ h : IsGroup G, kleinFour = some G ∧ G.n = 4 ∧ Nonempty ((VGrp.mk G h).Elem ≃* Multiplicative (ZMod 2) × Multiplicative (ZMod 2)) := by
  constructor
  · obtain ⟨G, h, h1, h2, -⟩ := C15_cyclic 1 le_rfl
    exact ⟨G, h, h1, h2⟩
  · obtain ⟨C, h, h1, h2, -, -, e, -⟩ := C15_cyclic 2 (by omega)
    obtain ⟨hn, hg, f, -⟩ := C15_direct_product ⟨C, h⟩ ⟨C, h⟩
    refine ⟨directProduct C C, hg, ?_, ?_, ⟨f.symm.trans (e.prodCongr e)⟩⟩
    · unfold kleinFour; rw [h1]; rfl
    · rw [show (directProduct C C).n = C.n * C.n from hn, h2]

/-! ## C16 -/

/-- `conjugacy_classes()` returns a valid partition whose blocks are the conjugacy classes, for every iteration order of the hash set. -/
theorem C16_conjugacy_classes (G : VGrp) (o : Oracle) (hc : G.ConjCacheOk) : ∃ s, G.g.conjClasses o = some s ∧ G.PartitionBy s IsConj := by
  obtain ⟨s, h1, h2⟩ := conjClasses_spec o (cacheOk_of hc)
  exact ⟨s, h1, by_conj h2⟩

/-- `conjugacy_class(x)` is the set of conjugates of `x`; `Err` iff out of range. -/
theorem C16_conjugacy_class (G : VGrp) (o : Oracle) :
    (∀ x : G.Elem, ∃ S, G.g.conjClass o x.idx = some (some S) ∧ G.Denotes S {y | ∃ g, y = g * x * g⁻¹}) ∧
    ∀ x, G.g.n ≤ x → G.g.conjClass o x = some none := by
  constructor
  · intro x
    obtain ⟨s, h1, h2⟩ := computeConj_spec (G := G) o
    refine ⟨s.project x.idx, ?_, ?_⟩
    · unfold Grp.conjClass
      rw [if_pos (idx_lt x), h1]; rfl
    · rw [h2.proj _ (idx_lt x)]
      refine ⟨fun y hy => conjCls_lt _ (idx_lt x) y hy, ?_⟩
      intro y
      rw [mem_conjCls', isConj_iff]
      exact ⟨fun ⟨g, h⟩ => ⟨g, h.symm⟩, fun ⟨g, h⟩ => ⟨g, h.symm⟩⟩
  · intro x hx
    unfold Grp.conjClass
    rw [if_neg (by omega)]

/-- `is_abelian()` (cached flag right if present) is true iff the group commutes. -/
theorem C16_is_abelian (G : VGrp) (hc : ∀ f, G.g.isAbelian = some f → (f = true ↔ ∀ x y : G.Elem, x * y = y * x)) :
    G.g.isAbelianQ = true ↔ ∀ x y : G.Elem, x * y = y * x := by
  unfold Grp.isAbelianQ
  rcases h : G.g.isAbelian with _ | f
  · exact computeIsAbelian_spec G
  · exact hc f h

example : D3.ConjCacheOk := by intro s hs; cases hs
example : D3.g.isAbelianQ = false := by decide

/-! ## C17 -/

/-- `generated_subgroup()` terminates with the subgroup generated by the subset; for an out-of-range subset it is `Err`. -/
theorem C17_generated_subgroup (G : VGrp) (S : Finset Nat) :
    ((∀ x ∈ S, x < G.g.n) → ∃ R, generatedSubgroup G.g S = some (some R) ∧ G.Denotes R (Subgroup.closure (G.toSet S))) ∧
    (¬ (∀ x ∈ S, x < G.g.n) → generatedSubgroup G.g S = some none) := by
  refine ⟨generatedSubgroup_spec S, ?_⟩
  intro h
  unfold generatedSubgroup subsetCheck
  rw [if_neg (by simpa using h)]

/-- For a non-empty subset `is_subgroup()` is true iff the subset is (the carrier of) a subgroup. The empty subset is excluded: see `C17_is_subgroup_empty_violated`. -/
theorem C17_is_subgroup_partial (G : VGrp) (S : Finset Nat) (hS : ∀ x ∈ S, x < G.g.n) (hne : S.Nonempty) :
    isSubgroup G.g S = true ↔ ∃ H : Subgroup G.Elem, G.Denotes S H := isSubgroup_spec S hS hne

/-- `is_subgroup()` wrongly accepts the empty subset (which is no subgroup), and `left_cosets()`/`right_cosets()` of it then never terminate. -/
theorem C17_is_subgroup_empty_violated (G : VGrp) (o : Oracle) :
    isSubgroup G.g ∅ = true ∧ (¬ ∃ H : Subgroup G.Elem, G.Denotes ∅ H) ∧ leftCosets G.g o ∅ = none ∧ rightCosets G.g o ∅ = none := by
  have hr : Finset.range G.g.n ≠ ∅ := by
    have := n_pos (G := G)
    simpa using this.ne'
  refine ⟨by simp [isSubgroup], ?_, ?_, ?_⟩
  · rintro ⟨H, h⟩
    have := (h.2 1).2 H.one_mem
    simp at this
  · exact classLoop_empty_diverges o _ (by simp) _ _ _ _ hr
  · exact classLoop_empty_diverges o _ (by simp) _ _ _ _ hr

/-- `add_elem`, `left_mul`, `right_mul`: insertion, and the translates `gS`, `Sg`; `Err` exactly when an out-of-range element would be needed. -/
theorem C17_translate (G : VGrp) (S : Finset Nat) (hS : ∀ x ∈ S, x < G.g.n) (x : Nat) :
    (G.g.n ≤ x → addElem G.g S x = none ∧ leftMul G.g S x = none ∧ rightMul G.g S x = none) ∧
    ∀ g : G.Elem, g.idx = x → addElem G.g S x = some (insert x S) ∧
      (∃ R, leftMul G.g S x = some R ∧ G.Denotes R {y | ∃ h ∈ G.toSet S, y = g * h}) ∧
      (∃ R, rightMul G.g S x = some R ∧ G.Denotes R {y | ∃ h ∈ G.toSet S, y = h * g}) := by
  constructor
  · intro hx
    have : x ∉ S := fun h => by have := hS x h; omega
    unfold addElem leftMul rightMul
    rw [if_neg this, if_neg (by omega), if_neg (by omega), if_neg (by omega)]
    exact ⟨rfl, rfl, rfl⟩
  · rintro g rfl
    refine ⟨?_, ?_, ?_⟩
    · unfold addElem
      by_cases h : g.idx ∈ S
      · rw [if_pos h, Finset.insert_eq_of_mem h]
      · rw [if_neg h, if_pos (idx_lt g)]
    · refine ⟨_, if_pos (idx_lt g), ?_, ?_⟩
      · intro y hy
        obtain ⟨h, hh, rfl⟩ := Finset.mem_image.1 hy
        exact G.ok.mul_lt _ _ (idx_lt g) (hS h hh)
      · intro y
        rw [Finset.mem_image]
        constructor
        · rintro ⟨h, hh, e⟩
          exact ⟨G.el h (hS h hh), hh, Elem.ext e.symm⟩
        · rintro ⟨h, hh, rfl⟩
          exact ⟨h.idx, hh, rfl⟩
    · refine ⟨_, if_pos (idx_lt g), ?_, ?_⟩
      · intro y hy
        obtain ⟨h, hh, rfl⟩ := Finset.mem_image.1 hy
        exact G.ok.mul_lt _ _ (hS h hh) (idx_lt g)
      · intro y
        rw [Finset.mem_image]
        constructor
        · rintro ⟨h, hh, e⟩
          exact ⟨G.el h (hS h hh), hh, Elem.ext e.symm⟩
        · rintro ⟨h, hh, rfl⟩
          exact ⟨h.idx, hh, rfl⟩

example : (∀ x ∈ ({0, 3} : Finset Nat), x < D3.g.n) ∧ ({0, 3} : Finset Nat).Nonempty ∧ isSubgroup D3.g {0, 3} = true ∧ isSubgroup D3.g {0, 1} = false := by
  decide

/-! ## C18 -/

/-- `normal_closure()` terminates with the normal closure of the subset, for every iteration order. -/
theorem C18_normal_closure (G : VGrp) (o : Oracle) (hc : G.ConjCacheOk) (S : Finset Nat) :
    ((∀ x ∈ S, x < G.g.n) → ∃ R, normalClosure G.g o S = some (some R) ∧ G.Denotes R (Subgroup.normalClosure (G.toSet S))) ∧
    (¬ (∀ x ∈ S, x < G.g.n) → normalClosure G.g o S = some none) := by
  refine ⟨normalClosure_spec o (cacheOk_of hc) S, ?_⟩
  intro h
  unfold normalClosure subsetCheck
  rw [if_neg (by simpa using h)]

/-- `is_normal_subgroup()` on a subgroup is true iff it is normal. -/
theorem C18_is_normal_subgroup (G : VGrp) (S : Finset Nat) (H : Subgroup G.Elem) (hH : G.Denotes S H) :
    isNormalSubgroup G.g S = true ↔ H.Normal := isNormalSubgroup_spec S H hH

/-- `{1, s}` is a non-normal subgroup of `D₃`, `{1, r, r²}` a normal one. -/
theorem d3_subgroups : (∃ H : Subgroup D3.Elem, D3.Denotes {0, 3} H ∧ ¬ H.Normal) ∧ ∃ H : Subgroup D3.Elem, D3.Denotes {0, 1, 2} H ∧ H.Normal := by
  constructor
  · obtain ⟨H, h⟩ := (isSubgroup_spec (G := D3) {0, 3} (by decide) (by decide)).1 (by decide)
    refine ⟨H, h, fun hn => ?_⟩
    have := (isNormalSubgroup_spec _ H h).2 hn
    revert this; decide
  · obtain ⟨H, h⟩ := (isSubgroup_spec (G := D3) {0, 1, 2} (by decide) (by decide)).1 (by decide)
    exact ⟨H, h, (isNormalSubgroup_spec _ H h).1 (by decide)⟩

example : ∃ H : Subgroup D3.Elem, D3.Denotes {0, 3} H := d3_subgroups.1.imp fun _ h => h.1

/-! ## C19 -/

/-- `left_cosets()` of a subgroup terminates for every iteration order; it is a valid partition whose blocks are the left cosets `gH`
(`x ~ y ↔ x⁻¹y ∈ H`); every block has `|H|` elements, so `size() * |H| = |G|`. -/
theorem C19_left_cosets (G : VGrp) (o : Oracle) (S : Finset Nat) (H : Subgroup G.Elem) (hH : G.Denotes S H) :
    ∃ s, leftCosets G.g o S = some s ∧ G.PartitionBy s (fun x y => x⁻¹ * y ∈ H) ∧ (∀ c ∈ s.classes, c.card = S.card) ∧
      s.classes.length * S.card = G.g.n := by
  obtain ⟨s, h1, h2⟩ := leftCosets_spec o S H hH
  have hp := by_left hH h2
  have hc : ∀ c ∈ s.classes, c.card = S.card := by
    intro c hc
    obtain ⟨x, hx, rfl⟩ := h2.mem c hc
    exact leftCls_card S H hH x hx
  refine ⟨s, h1, hp, hc, ?_⟩
  rw [← hp.1.card_sum, List.map_congr_left hc]
  simp

/-- `right_cosets()`: same with the right cosets `Hg` (`x ~ y ↔ y x⁻¹ ∈ H`). -/
theorem C19_right_cosets (G : VGrp) (o : Oracle) (S : Finset Nat) (H : Subgroup G.Elem) (hH : G.Denotes S H) :
    ∃ s, rightCosets G.g o S = some s ∧ G.PartitionBy s (fun x y => y * x⁻¹ ∈ H) ∧ (∀ c ∈ s.classes, c.card = S.card) ∧
      s.classes.length * S.card = G.g.n := by
  obtain ⟨s, h1, h2⟩ := rightCosets_spec o S H hH
  have hp := by_right hH h2
  have hc : ∀ c ∈ s.classes, c.card = S.card := by
    intro c hc
    obtain ⟨x, hx, rfl⟩ := h2.mem c hc
    exact rightCls_card S H hH x hx
  refine ⟨s, h1, hp, hc, ?_⟩
  rw [← hp.1.card_sum, List.map_congr_left hc]
  simp

/-- The left and right coset partitions compare equal (`==`) iff the subgroup is normal, whatever the two iteration orders. -/
theorem C19_left_eq_right (G : VGrp) (o₁ o₂ : Oracle) (S : Finset Nat) (H : Subgroup G.Elem) (hH : G.Denotes S H) :
    ∃ s t, leftCosets G.g o₁ S = some s ∧ rightCosets G.g o₂ S = some t ∧ (PState.eq G.g.n s t = true ↔ H.Normal) := by
  obtain ⟨s, h1, h2, -⟩ := C19_left_cosets G o₁ S H hH
  obtain ⟨t, k1, k2, -⟩ := C19_right_cosets G o₂ S H hH
  refine ⟨s, t, h1, k1, ?_⟩
  rw [eq_spec _ s t h2.1 k2.1]
  constructor
  · intro h
    refine ⟨fun x hx g => ?_⟩
    have h3 := (h g.idx (g * x).idx (idx_lt _) (idx_lt _)).1 ((h2.2 g (g * x)).2 (by simpa using hx))
    exact (k2.2 g (g * x)).1 h3
  · intro hn x y hx hy
    have e1 := h2.2 (G.el x hx) (G.el y hy)
    have e2 := k2.2 (G.el x hx) (G.el y hy)
    rw [idx_el, idx_el] at e1 e2
    rw [e1, e2]
    exact hn.mem_comm_iff

/-- `is_left_cosets()`, `is_right_cosets()` and `is_congruence()` on a valid partition: they terminate, and answer true iff the partition is the
partition into left cosets / right cosets of some subgroup / cosets of a normal subgroup. -/
theorem C19_is_cosets (G : VGrp) (o₁ o₂ : Oracle) (s : PState) (hs : IsPart G.g.n s) :
    (∃ v, isLeftCosets G.g o₁ s = some v ∧ (v = true ↔ ∃ H : Subgroup G.Elem, G.PartitionBy s (fun x y => x⁻¹ * y ∈ H))) ∧
    (∃ v, isRightCosets G.g o₂ s = some v ∧ (v = true ↔ ∃ H : Subgroup G.Elem, G.PartitionBy s (fun x y => y * x⁻¹ ∈ H))) ∧
    (∃ v, isCongruence G.g o₁ o₂ s = some v ∧ (v = true ↔ ∃ H : Subgroup G.Elem, H.Normal ∧ G.PartitionBy s (fun x y => x⁻¹ * y ∈ H))) := by
  set S := s.project G.g.ident with hS
  obtain ⟨c, c1, c2⟩ := hs.look G.g.ident G.ok.ident_lt
  obtain ⟨c3, c4⟩ := List.getElem?_eq_some_iff.1 c1
  have hSc : S = s.classes[s.lookup.getD G.g.ident 0] := by rw [hS, PState.project, List.getD_eq_getElem _ _ c3]
  have hmem : ∀ x : G.Elem, x.idx ∈ S ↔ s.lookup.getD x.idx 0 = s.lookup.getD G.g.ident 0 := by
    intro x; rw [hSc]; exact hs.mem_iff _ (idx_lt x) _ c3
  have hSlt : ∀ x ∈ S, x < G.g.n := by
    intro x hx
    rw [hSc] at hx
    exact (hs.cover x).1 ⟨_, List.getElem_mem c3, hx⟩
  have hSne : S.Nonempty := ⟨_, (hmem 1).2 rfl⟩
  have left : ∃ v, isLeftCosets G.g o₁ s = some v ∧ (v = true ↔ ∃ H : Subgroup G.Elem, G.PartitionBy s (fun x y => x⁻¹ * y ∈ H)) := by
    unfold isLeftCosets
    simp only [← hS]
    by_cases hsub : isSubgroup G.g S = true
    · rw [if_pos hsub]
      obtain ⟨H, hH⟩ := (isSubgroup_spec S hSlt hSne).1 hsub
      obtain ⟨l, l1, l2, -⟩ := C19_left_cosets G o₁ S H hH
      refine ⟨_, by rw [l1]; rfl, ?_⟩
      rw [eq_spec _ l s l2.1 hs]
      constructor
      · intro h
        exact ⟨H, hs, fun x y => by rw [← h _ _ (idx_lt x) (idx_lt y)]; exact l2.2 x y⟩
      · rintro ⟨K, -, hK⟩ x y hx hy
        have e1 := l2.2 (G.el x hx) (G.el y hy)
        have e2 := hK (G.el x hx) (G.el y hy)
        have : ∀ z : G.Elem, z ∈ K ↔ z ∈ H := by
          intro z
          rw [← SetLike.mem_coe (p := H), ← hH.2 z, hmem z]
          have := hK 1 z
          beta_reduce at this
          rw [inv_one, one_mul] at this
          rw [← this]
          exact ⟨Eq.symm, Eq.symm⟩
        beta_reduce at e1 e2
        rw [idx_el, idx_el] at e1 e2
        rw [e1, e2, this]
    · rw [if_neg hsub]
      refine ⟨false, rfl, ?_⟩
      simp only [Bool.false_eq_true, false_iff]
      rintro ⟨K, -, hK⟩
      apply hsub
      refine (isSubgroup_spec S hSlt hSne).2 ⟨K, hSlt, fun x => ?_⟩
      rw [hmem]
      have := hK 1 x
      beta_reduce at this
      rw [inv_one, one_mul] at this
      rw [SetLike.mem_coe, ← this]
      exact ⟨Eq.symm, Eq.symm⟩
  have right : ∃ v, isRightCosets G.g o₂ s = some v ∧ (v = true ↔ ∃ H : Subgroup G.Elem, G.PartitionBy s (fun x y => y * x⁻¹ ∈ H)) := by
    unfold isRightCosets
    simp only [← hS]
    by_cases hsub : isSubgroup G.g S = true
    · rw [if_pos hsub]
      obtain ⟨H, hH⟩ := (isSubgroup_spec S hSlt hSne).1 hsub
      obtain ⟨l, l1, l2, -⟩ := C19_right_cosets G o₂ S H hH
      refine ⟨_, by rw [l1]; rfl, ?_⟩
      rw [eq_spec _ l s l2.1 hs]
      constructor
      · intro h
        exact ⟨H, hs, fun x y => by rw [← h _ _ (idx_lt x) (idx_lt y)]; exact l2.2 x y⟩
      · rintro ⟨K, -, hK⟩ x y hx hy
        have e1 := l2.2 (G.el x hx) (G.el y hy)
        have e2 := hK (G.el x hx) (G.el y hy)
        have : ∀ z : G.Elem, z ∈ K ↔ z ∈ H := by
          intro z
          rw [← SetLike.mem_coe (p := H), ← hH.2 z, hmem z]
          have := hK 1 z
          beta_reduce at this
          rw [inv_one, mul_one] at this
          rw [← this]
          exact ⟨Eq.symm, Eq.symm⟩
        beta_reduce at e1 e2
        rw [idx_el, idx_el] at e1 e2
        rw [e1, e2, this]
    · rw [if_neg hsub]
      refine ⟨false, rfl, ?_⟩
      simp only [Bool.false_eq_true, false_iff]
      rintro ⟨K, -, hK⟩
      apply hsub
      refine (isSubgroup_spec S hSlt hSne).2 ⟨K, hSlt, fun x => ?_⟩
      rw [hmem]
      have := hK 1 x
      beta_reduce at this
      rw [inv_one, mul_one] at this
      rw [SetLike.mem_coe, ← this]
      exact ⟨Eq.symm, Eq.symm⟩
  refine ⟨left, right, ?_⟩
  obtain ⟨v, v1, v2⟩ := left
  obtain ⟨w, w1, w2⟩ := right
  unfold isCongruence
  rw [v1]
  cases v with
  | false =>
    refine ⟨false, rfl, ?_⟩
    simp only [Bool.false_eq_true, false_iff] at v2 ⊢
    rintro ⟨H, -, h⟩
    exact v2 ⟨H, h⟩
  | true =>
    refine ⟨w, w1, ?_⟩
    rw [w2]
    obtain ⟨H, -, hH⟩ := v2.1 rfl
    constructor
    · rintro ⟨K, -, hK⟩
      have hKH : ∀ z : G.Elem, z ∈ K ↔ z ∈ H := by
        intro z
        have e1 := hK 1 z
        have e2 := hH 1 z
        beta_reduce at e1
        rw [inv_one, mul_one] at e1
        beta_reduce at e2
        rw [inv_one, one_mul] at e2
        rw [← e1, ← e2]
      refine ⟨H, ⟨fun x hx g => ?_⟩, hs, hH⟩
      have := (hH g (g * x)).2 (by simpa using hx)
      have := (hK g (g * x)).1 this
      exact (hKH _).1 this
    · rintro ⟨N, hN, -, h⟩
      refine ⟨N, hs, fun x y => ?_⟩
      rw [h x y]
      exact hN.mem_comm_iff

example : ∃ s, IsPart D3.g.n s ∧ D3.PartitionBy s IsConj := by
  obtain ⟨s, -, h⟩ := C16_conjugacy_classes D3 ⟨fun _ s => if h : s.Nonempty then s.min' h else 0, fun _ s h => by
    rw [dif_pos h]; exact Finset.min'_mem _ _⟩ (by intro s hs; cases hs)
  exact ⟨s, h.1, h⟩

/-! ## C20 -/

/-- `quotient_group()` of a normal subgroup: it does not diverge; the result is a group of order `|G|/|N|` in the sense `size * |N| = |G|`, and the
lookup map of the coset partition is a surjective homomorphism onto it with kernel `N`. -/
theorem C20_quotient_group (G : VGrp) (o : Oracle) (S : Finset Nat) (N : Subgroup G.Elem) (hN : N.Normal) (hH : G.Denotes S N) :
    ∃ s Q, leftCosets G.g o S = some s ∧ quotientGroup G.g o S = some Q ∧ Q.n * S.card = G.g.n ∧ ∃ h : IsGroup Q,
      ∃ π : G.Elem →* (VGrp.mk Q h).Elem, Function.Surjective π ∧ π.ker = N ∧ ∀ x, (π x).idx = s.lookup.getD x.idx 0 := by
  obtain ⟨s, h1, h2⟩ := leftCosets_spec o S N hH
  obtain ⟨s', h1', -, -, h4⟩ := C19_left_cosets G o S N hH
  rw [h1] at h1'
  cases h1'
  have hm := quotientOf_models S N s hH h2
  have hl := fun x : G.Elem => quotDecode_lookup S N hH s h2 x
  have hlt : ∀ x : G.Elem, s.lookup.getD x.idx 0 < (quotientOf G.g s).n := fun x => (hl x).1
  refine ⟨s, quotientOf G.g s, h1, by unfold quotientGroup; rw [h1]; rfl, h4, hm.isGroup, ?_⟩
  refine ⟨MonoidHom.mk' (fun x => VGrp.el (VGrp.mk _ hm.isGroup) _ (hlt x)) ?_, ?_, ?_, fun x => rfl⟩
  · intro a b
    apply hm.hom_injective
    rw [map_mul]
    change quotDecode N s (s.lookup.getD (a * b).idx 0) = quotDecode N s (s.lookup.getD a.idx 0) * quotDecode N s (s.lookup.getD b.idx 0)
    rw [(hl (a * b)).2, (hl a).2, (hl b).2]
    rfl
  · intro y
    obtain ⟨x, -, hx⟩ := block_rep S N hH s h2 y.idx (idx_lt y)
    exact ⟨x, Elem.ext hx⟩
  · ext x
    rw [MonoidHom.mem_ker, ← map_eq_one_iff _ hm.hom_injective]
    change quotDecode N s (s.lookup.getD x.idx 0) = 1 ↔ _
    rw [(hl x).2, QuotientGroup.eq_one_iff]

/-- `Subgroup::to_group()` does not panic; the result is a group of size `|H|`, isomorphic to `H` by the increasing enumeration of its elements. -/
theorem C20_to_group (G : VGrp) (S : Finset Nat) (H : Subgroup G.Elem) (hH : G.Denotes S H) :
    ∃ K, subgroupToGroup G.g S = some K ∧ K.n = S.card ∧ ∃ h : IsGroup K, ∃ e : (VGrp.mk K h).Elem ≃* H,
      ∀ k, ((e k : H) : G.Elem).idx = (S.sort (· ≤ ·)).getD k.idx 0 := by
  classical
  obtain ⟨K, h1, h2, -, -, -, hm⟩ := subgroupToGroup_models S H hH
  have hk : ∀ k, k < K.n → (S.sort (· ≤ ·)).getD k 0 ∈ S := by
    intro k hk
    rw [h2] at hk
    have hk' : k < (S.sort (· ≤ ·)).length := by rw [Finset.length_sort]; exact hk
    rw [List.getD_eq_getElem _ _ hk', ← Finset.mem_sort (· ≤ ·)]
    exact List.getElem_mem _
  have hval : ∀ k : (VGrp.mk K hm.isGroup).Elem, (hm.hom k).idx = (S.sort (· ≤ ·)).getD k.idx 0 := by
    intro k
    change (if h : (S.sort (· ≤ ·)).getD k.idx 0 < G.g.n then G.el _ h else (1 : G.Elem)).idx = _
    rw [dif_pos (hH.1 _ (hk _ (idx_lt k)))]
    rfl
  have hin : ∀ k, hm.hom k ∈ H := fun k => (hH.2 _).1 (by rw [hval]; exact hk _ (idx_lt k))
  refine ⟨K, h1, h2, hm.isGroup, MulEquiv.ofBijective (hm.hom.codRestrict H hin) ⟨?_, ?_⟩, fun k => hval k⟩
  · intro a b h
    exact hm.hom_injective (congrArg Subtype.val h)
  · rintro ⟨y, hy⟩
    have hyS := (hH.2 y).2 hy
    have hmem : y.idx ∈ S.sort (· ≤ ·) := (Finset.mem_sort (· ≤ ·)).2 hyS
    have hi : (S.sort (· ≤ ·)).idxOf y.idx < K.n := by
      rw [h2, ← Finset.length_sort (· ≤ ·)]; exact List.idxOf_lt_length_of_mem hmem
    refine ⟨VGrp.el (VGrp.mk K hm.isGroup) _ hi, Subtype.ext (Elem.ext ?_)⟩
    change (hm.hom _).idx = y.idx
    rw [hval]
    change (S.sort (· ≤ ·)).getD ((S.sort (· ≤ ·)).idxOf y.idx) 0 = y.idx
    rw [List.getD_eq_getElem _ _ (List.idxOf_lt_length_of_mem hmem), List.getElem_idxOf]

example : ∃ H : Subgroup D3.Elem, D3.Denotes {0, 1, 2} H ∧ H.Normal := d3_subgroups.2

/-! ## C21 -/

/-- `subgroups()`: terminates for every iteration order; the keys are pairwise different and are exactly the subgroups, each with a set generating it. -/
theorem C21_subgroups (G : VGrp) (ord : Order (Finset Nat × Finset Nat)) :
    ∃ r, subgroups G.g ord = some r ∧ (r.map Prod.fst).Nodup ∧
      (∀ p ∈ r, (∀ x ∈ p.2, x < G.g.n) ∧ G.Denotes p.1 (Subgroup.closure (G.toSet p.2))) ∧
      ∀ H : Subgroup G.Elem, ∃ p ∈ r, G.Denotes p.1 H := by
  obtain ⟨r, h1, h2, h3⟩ := subgroupsImpl_spec (subgroups_closureOp (G := G)) ord
  refine ⟨r, h1, h2.nodup, ?_, ?_⟩
  · intro p hp
    refine ⟨(h2.ok p hp).1, ?_⟩
    rw [← (h2.ok p hp).2]
    exact denotes_idxSet _
  · intro H
    have := h3 (idxSet (H : Set G.Elem)) ⟨_, (mem_idxSet _ (1 : G.Elem)).2 H.one_mem⟩ (idxSet_lt _)
    have e : G.toSet (idxSet (H : Set G.Elem)) = (H : Set G.Elem) := Set.ext fun x => mem_idxSet _ x
    rw [e, Subgroup.closure_eq] at this
    obtain ⟨p, hp, hpe⟩ := List.mem_map.1 this
    exact ⟨p, hp, by rw [hpe]; exact denotes_idxSet _⟩

/-- `normal_subgroups()`: the same for normal subgroups and normal closures. -/
theorem C21_normal_subgroups (G : VGrp) (o : Oracle) (ord : Order (Finset Nat × Finset Nat)) (hc : G.ConjCacheOk) :
    ∃ r, normalSubgroups G.g o ord = some r ∧ (r.map Prod.fst).Nodup ∧
      (∀ p ∈ r, (∀ x ∈ p.2, x < G.g.n) ∧ G.Denotes p.1 (Subgroup.normalClosure (G.toSet p.2))) ∧
      ∀ H : Subgroup G.Elem, H.Normal → ∃ p ∈ r, G.Denotes p.1 H := by
  obtain ⟨r, h1, h2, h3⟩ := subgroupsImpl_spec (normalSubgroups_closureOp (G := G) o (cacheOk_of hc)) ord
  refine ⟨r, h1, h2.nodup, ?_, ?_⟩
  · intro p hp
    refine ⟨(h2.ok p hp).1, ?_⟩
    rw [← (h2.ok p hp).2]
    exact denotes_idxSet _
  · intro H hH
    have := h3 (idxSet (H : Set G.Elem)) ⟨_, (mem_idxSet _ (1 : G.Elem)).2 H.one_mem⟩ (idxSet_lt _)
    have e : G.toSet (idxSet (H : Set G.Elem)) = (H : Set G.Elem) := Set.ext fun x => mem_idxSet _ x
    rw [e, Subgroup.normalClosure_eq_self] at this
    obtain ⟨p, hp, hpe⟩ := List.mem_map.1 this
    exact ⟨p, hp, by rw [hpe]; exact denotes_idxSet _⟩

/-! ## C22 -/

/-- `PartitionState::check_state` is `Ok` iff the classes partition the elements into non-empty blocks and `lookup` is the block-index map. -/
theorem C22_check_state (n : Nat) (s : PState) : s.check n = true ↔ IsPart n s := check_spec n s

/-- `Partition::from_subsets` succeeds iff the given sets partition the elements into non-empty blocks, and then keeps them in order with the right lookup. -/
theorem C22_from_subsets (n : Nat) (cs : List (Finset Nat)) :
    ((PState.fromSubsets n cs).isSome = true ↔ SetPartition n cs) ∧ ∀ s, PState.fromSubsets n cs = some s → s.classes = cs ∧ IsPart n s :=
  fromSubsets_spec n cs

/-- `==` on valid partitions of the same group holds iff they have the same blocks. -/
theorem C22_eq (n : Nat) (a b : PState) (ha : IsPart n a) (hb : IsPart n b) :
    PState.eq n a b = true ↔ ∀ c : Finset Nat, c ∈ a.classes ↔ c ∈ b.classes := by
  rw [eq_spec n a b ha hb]
  have blk : ∀ {s : PState}, IsPart n s → ∀ c : Finset Nat, c ∈ s.classes ↔ ∃ x, x < n ∧ ∀ y, y ∈ c ↔ (y < n ∧ s.lookup.getD x 0 = s.lookup.getD y 0) := by
    intro s hs c
    constructor
    · intro hc
      obtain ⟨x, hx⟩ := hs.nonempty c hc
      have hxn := (hs.cover x).1 ⟨c, hc, hx⟩
      obtain ⟨k, hk, rfl⟩ := List.getElem_of_mem hc
      refine ⟨x, hxn, fun y => ?_⟩
      rw [(hs.mem_iff x hxn k hk).1 hx]
      constructor
      · intro hy
        have hyn := (hs.cover y).1 ⟨_, hc, hy⟩
        exact ⟨hyn, ((hs.mem_iff y hyn k hk).1 hy).symm⟩
      · rintro ⟨hyn, e⟩
        exact (hs.mem_iff y hyn k hk).2 e.symm
    · rintro ⟨x, hx, h⟩
      obtain ⟨d, h1, h2⟩ := hs.look x hx
      obtain ⟨h3, h4⟩ := List.getElem?_eq_some_iff.1 h1
      have : c = s.classes[s.lookup.getD x 0] := by
        ext y
        rw [h]
        constructor
        · rintro ⟨hyn, e⟩
          exact (hs.mem_iff y hyn _ h3).2 e.symm
        · intro hy
          have hyn := (hs.cover y).1 ⟨_, List.getElem_mem h3, hy⟩
          exact ⟨hyn, ((hs.mem_iff y hyn _ h3).1 hy).symm⟩
      rw [this]
      exact List.getElem_mem _
  constructor
  · intro h c
    rw [blk ha, blk hb]
    constructor
    · rintro ⟨x, hx, e⟩
      exact ⟨x, hx, fun y => by rw [e]; exact and_congr_right fun hy => h x y hx hy⟩
    · rintro ⟨x, hx, e⟩
      exact ⟨x, hx, fun y => by rw [e]; exact and_congr_right fun hy => (h x y hx hy).symm⟩
  · intro h x y hx hy
    obtain ⟨d, h1, h2⟩ := ha.look x hx
    obtain ⟨h3, h4⟩ := List.getElem?_eq_some_iff.1 h1
    obtain ⟨z, hz, e⟩ := (blk hb _).1 ((h _).1 (List.getElem_mem h3))
    have ex := (e x).1 (by rw [h4]; exact h2)
    have ey := e y
    rw [ha.mem_iff y hy _ h3] at ey
    rw [eq_comm, ey, ex.2]
    exact ⟨fun h => h.2, fun h => ⟨hy, h⟩⟩

example : SetPartition 3 [{0, 2}, {1}] := ⟨by decide, by decide, fun x => by simp; omega⟩
example : IsPart 3 ⟨[{0, 2}, {1}], [0, 1, 0]⟩ where
  nonempty := by decide
  disj := by decide
  cover x := by simp; omega
  len := rfl
  look x hx := by
    have : x = 0 ∨ x = 1 ∨ x = 2 := by omega
    rcases this with rfl | rfl | rfl
    · exact ⟨_, rfl, by decide⟩
    · exact ⟨_, rfl, by decide⟩
    · exact ⟨_, rfl, by decide⟩
example : PState.eq 3 ⟨[{0, 2}, {1}], [0, 1, 0]⟩ ⟨[{1}, {0, 2}], [1, 0, 1]⟩ = true := by decide

end Verif.Table
