import Verif.Proofs.ToddCoxeterFinite
import Verif.Proofs.ToddCoxeterRun

/-!
# Property theorems for coset enumeration (C26) and the presentation builder (C47)
-/

namespace Verif.ToddCoxeter

open Verif.Perm Verif.Table

/-! ## C26 -/

/-- C26 (positive part): whenever the enumeration returns `(m, perms)`, there is one permutation of `{0..m-1}` per generator, and the returned
points map onto the cosets of the subgroup, point `0` to the subgroup itself, compatibly with the generators.
Missing (and false, see `C26_index_wrong`): that this map is injective. -/
theorem C26_coset_map_partial {n m : Nat} {rels subs : List (List Nat)} {perms : List (List Nat)}
    (h : enumerateCosets n rels subs = some (m, perms)) :
    perms.length = n ∧ ∃ (h0 : 0 < m) (σ : Fin n → Equiv.Perm (Fin m)) (f : Fin m → PresGroup n rels ⧸ PresGroup.sub (n := n) rels subs),
      (∀ g i, (σ g i).val = call (perms.getD g []) i) ∧ (∀ g i, m ≤ i → call (perms.getD g []) i = i) ∧
      f ⟨0, h0⟩ = ((1 : PresGroup n rels) : _ ⧸ _) ∧
      (∀ g i, f (σ g i) = (PresGroup.gen g : PresGroup n rels) • f i) ∧ Function.Surjective f := by
  obtain ⟨h0, hl, hp, f, hf0, hf, hs⟩ := enumerate_coset_map h
  have hg : ∀ g : Fin n, perms[g.val]? = some (perms.getD g []) := by
    intro g
    have : g.val < perms.length := by rw [hl]; exact g.2
    rw [List.getElem?_eq_getElem this, List.getD_eq_getElem _ _ this]
  refine ⟨hl, h0, fun g => toFin (perms.getD g []) (hp _ (List.mem_of_getElem? (hg g))).1 m (hp _ (List.mem_of_getElem? (hg g))).2, fun i => f i,
    ?_, ?_, hf0, ?_, ?_⟩
  · intro g i; rfl
  · intro g i hi
    by_cases hgl : g < perms.length
    · have hm := (hp (perms.getD g []) (by rw [List.getD_eq_getElem _ _ hgl]; exact List.getElem_mem hgl)).2
      exact call_of_ge _ _ (hm.trans hi)
    · rw [List.getD_eq_default _ _ (by omega)]; rfl
  · intro g i
    exact hf g _ (hg g) i i.2
  · intro q
    obtain ⟨i, hi, hq⟩ := hs q
    exact ⟨⟨i, hi⟩, hq⟩

/-- C26: the returned count is never below the index of the subgroup, and the index is then finite. -/
theorem C26_index_le_partial {n m : Nat} {rels subs : List (List Nat)} {perms : List (List Nat)}
    (h : enumerateCosets n rels subs = some (m, perms)) :
    0 < (PresGroup.sub (n := n) rels subs).index ∧ (PresGroup.sub (n := n) rels subs).index ≤ m := by
  obtain ⟨-, h0, σ, f, -, -, -, -, hs⟩ := C26_coset_map_partial h
  haveI : Finite (PresGroup n rels ⧸ PresGroup.sub (n := n) rels subs) := Finite.of_surjective f hs
  have hc := Nat.card_le_card_of_surjective f hs
  rw [Nat.card_fin] at hc
  exact ⟨Nat.card_pos, hc⟩

/-- C26: with infinitely many cosets the enumeration never returns. -/
theorem C26_infinite_never_returns {n : Nat} {rels subs : List (List Nat)}
    (h : Infinite (PresGroup n rels ⧸ PresGroup.sub (n := n) rels subs)) : enumerateCosets n rels subs = none := by
  cases hr : enumerateCosets n rels subs with
  | none => rfl
  | some r =>
    obtain ⟨m, perms⟩ := r
    obtain ⟨-, h0, σ, f, -, -, -, -, hs⟩ := C26_coset_map_partial hr
    exact absurd (Finite.of_surjective f hs) (not_finite_iff_infinite.2 h)

/-- C26: the returned permutations satisfy the relations, the subgroup generators fix `0` and `0` reaches every point:
then the returned points are exactly the cosets, with the right action. (Missing: that the code always achieves these three conditions; it does not.) -/
theorem C26_certified_partial {n m : Nat} {rels subs : List (List Nat)} {perms : List (List Nat)}
    (h : enumerateCosets n rels subs = some (m, perms)) (h0 : 0 < m) (σ : Fin n → Equiv.Perm (Fin m))
    (hσ : ∀ g i, (σ g i).val = call (perms.getD g []) i)
    (hr : ∀ w ∈ rels, wordVal σ w = 1) (hs : ∀ w ∈ subs, wordVal σ w ⟨0, h0⟩ = ⟨0, h0⟩)
    (ht : ∀ i, ∃ k ∈ Subgroup.closure (Set.range σ), k ⟨0, h0⟩ = i) :
    (PresGroup.sub (n := n) rels subs).index = m ∧
    ∃ e : Fin m ≃ PresGroup n rels ⧸ PresGroup.sub (n := n) rels subs, e ⟨0, h0⟩ = ((1 : PresGroup n rels) : _ ⧸ _) ∧
      ∀ g i, e (σ g i) = (PresGroup.gen g : PresGroup n rels) • e i := by
  obtain ⟨-, h0', σ', f, hσ', -, hf0, hf, hsur⟩ := C26_coset_map_partial h
  have hσσ : σ' = σ := by
    funext g; ext i; rw [hσ, hσ']
  subst hσσ
  have hinj := coset_map_injective f σ' ⟨0, h0⟩ hf0 hf hr hs ht
  have hb : Function.Bijective f := ⟨hinj, hsur⟩
  refine ⟨?_, Equiv.ofBijective f hb, hf0, hf⟩
  have := Nat.card_eq_of_bijective f hb
  rw [Nat.card_eq_fintype_card, Fintype.card_fin] at this
  exact this.symm

theorem sub_nil {n : Nat} {rels : List (List Nat)} : PresGroup.sub (n := n) rels [] = ⊥ := by
  unfold PresGroup.sub
  have : {x : PresGroup n rels | ∃ w ∈ ([] : List (List Nat)), x = wordVal PresGroup.gen w} = ∅ := by
    ext x; simp
  rw [this, Subgroup.closure_empty]

theorem finite_group_of_injective {n m : Nat} {rels : List (List Nat)} {perms : List (List Nat)} {G : Grp}
    (hG' : finiteGroupOf n m perms = some G) (h0 : 0 < m) (hl : perms.length = n) (hp : ∀ p ∈ perms, IsPermList p ∧ p.length ≤ m)
    (f : Nat → PresGroup n rels ⧸ PresGroup.sub (n := n) rels []) (hf0 : f 0 = ((1 : PresGroup n rels) : _ ⧸ _))
    (hf : ∀ (g : Fin n) (p : List Nat), perms[g.val]? = some p → ∀ i, i < m → f (call p i) = (PresGroup.gen g : PresGroup n rels) • f i)
    (hs : ∀ q, ∃ i, i < m ∧ f i = q) (hinj : Function.Injective (fun i : Fin m => f i)) :
    ∃ hok : IsGroup G, G.n = m ∧ Nonempty ((VGrp.mk G hok).Elem ≃* PresGroup n rels) := by
  have hmk : ∀ x y : PresGroup n rels, (x : PresGroup n rels ⧸ PresGroup.sub (n := n) rels []) = y → x = y := by
    intro x y hxy
    rw [QuotientGroup.eq, sub_nil, Subgroup.mem_bot] at hxy
    exact inv_mul_eq_one.1 hxy
  have hF : ∀ i, (((f i).out : PresGroup n rels) : PresGroup n rels ⧸ PresGroup.sub (n := n) rels []) = f i := fun i => Quotient.out_eq' _
  have hF0 : ((f 0).out : PresGroup n rels) = 1 := by apply hmk; rw [hF, hf0]
  have hFg : ∀ (g : Nat) (p : List Nat), perms[g]? = some p → ∀ i, i < m → ((f (call p i)).out : PresGroup n rels) =
      (if h : g < n then (PresGroup.gen ⟨g, h⟩ : PresGroup n rels) else 1) * (f i).out := by
    intro g p hpg i hi
    have hgn : g < n := by rw [← hl]; exact (List.getElem?_eq_some_iff.1 hpg).1
    apply hmk
    rw [hF, hf ⟨g, hgn⟩ p hpg i hi, dif_pos hgn]
    conv_lhs => rw [← hF i]
    rfl
  have hFi : ∀ i j, i < m → j < m → ((f i).out : PresGroup n rels) = (f j).out → i = j := by
    intro i j hi hj hij
    have : f i = f j := by rw [← hF i, ← hF j, hij]
    exact congrArg Fin.val (hinj (a₁ := ⟨i, hi⟩) (a₂ := ⟨j, hj⟩) this)
  obtain ⟨hmod, hn⟩ := finiteGroupOf_models _ (fun i => (f i).out) h0 hp hF0 hFg hFi hG'
  refine ⟨hmod.isGroup, hn, ⟨(hmod.equiv ?_).trans (MulEquiv.inv' _).symm⟩⟩
  intro y
  obtain ⟨i, hi, hq⟩ := hs (y.unop : PresGroup n rels)
  refine ⟨i, by rw [hn]; exact hi, ?_⟩
  apply MulOpposite.unop_injective
  apply hmk
  change (((f i).out : PresGroup n rels) : PresGroup n rels ⧸ PresGroup.sub (n := n) rels []) = _
  rw [hF, hq]

/-- C26: when the enumerated permutations satisfy the relations, `into_finite_group` returns a group isomorphic to the presented group.
(Missing: the code does not always achieve the condition, see `C26_finite_group_wrong`.) -/
theorem C26_finite_group_partial {n m : Nat} {rels : List (List Nat)} {perms : List (List Nat)} {G : Grp}
    (he : enumerateCosets n rels [] = some (m, perms)) (hG : intoFiniteGroup n rels = some G)
    (σ : Fin n → Equiv.Perm (Fin m)) (hσ : ∀ g i, (σ g i).val = call (perms.getD g []) i)
    (hr : ∀ w ∈ rels, wordVal σ w = 1) :
    ∃ hok : IsGroup G, G.n = m ∧ Nonempty ((VGrp.mk G hok).Elem ≃* PresGroup n rels) := by
  obtain ⟨h0, hl, hp, f, hf0, hf, hs⟩ := enumerate_coset_map he
  have hG' : finiteGroupOf n m perms = some G := by
    unfold intoFiniteGroup at hG
    rw [he] at hG
    exact hG
  have hg : ∀ g : Fin n, perms[g.val]? = some (perms.getD g []) := by
    intro g
    have : g.val < perms.length := by rw [hl]; exact g.2
    rw [List.getElem?_eq_getElem this, List.getD_eq_getElem _ _ this]
  -- transitivity from the paths
  obtain ⟨ip, paths, -, hpl, hpath, -⟩ := finiteGroupOf_spec hG'
  have htr : ∀ (w : List Nat) (z : Fin m) (y : Nat), applyPath perms z w = some y → ∃ k ∈ Subgroup.closure (Set.range σ), (k z).val = y := by
    intro w
    induction w with
    | nil => intro z y h; cases h; exact ⟨1, one_mem _, rfl⟩
    | cons g t ih =>
      intro z y h
      rw [applyPath_cons] at h
      obtain ⟨p, hpg, h⟩ := Option.bind_eq_some_iff.1 h
      have hgn : g < n := by rw [← hl]; exact (List.getElem?_eq_some_iff.1 hpg).1
      have hcall : call p z = (σ ⟨g, hgn⟩ z).val := by
        rw [hσ]
        have := hg ⟨g, hgn⟩
        rw [hpg] at this
        simp only [Option.some.injEq] at this
        rw [this]
      rw [hcall] at h
      obtain ⟨k, hk, hky⟩ := ih _ _ h
      exact ⟨k * σ ⟨g, hgn⟩, mul_mem hk (Subgroup.subset_closure ⟨_, rfl⟩), hky⟩
  have ht : ∀ i, ∃ k ∈ Subgroup.closure (Set.range σ), k ⟨0, h0⟩ = i := by
    intro i
    obtain ⟨k, hk, hki⟩ := htr _ ⟨0, h0⟩ _ (hpath i i.2)
    exact ⟨k, hk, Fin.ext hki⟩
  have hinj := coset_map_injective (subs := []) (fun i : Fin m => f i) σ ⟨0, h0⟩ hf0
    (fun g i => by rw [hσ]; exact hf g _ (hg g) i i.2) hr (by simp) ht
  exact finite_group_of_injective hG' h0 hl hp f hf0 hf hs hinj

/-- C26: when the table returned by `into_finite_group` has as many elements as the presented group, it is the presented group.
(Missing: the code does not always achieve the condition, see `C26_finite_group_wrong`.) -/
theorem C26_finite_group_count_partial {n : Nat} {rels : List (List Nat)} {G : Grp}
    (hG : intoFiniteGroup n rels = some G) (hc : Nat.card (PresGroup n rels) = G.n) :
    ∃ hok : IsGroup G, Nonempty ((VGrp.mk G hok).Elem ≃* PresGroup n rels) := by
  have hG0 := hG
  unfold intoFiniteGroup at hG
  obtain ⟨⟨m, perms⟩, he, hG'⟩ := Option.bind_eq_some_iff.1 hG
  obtain ⟨h0, hl, hp, f, hf0, hf, hs⟩ := enumerate_coset_map he
  have hGm : G.n = m := by
    have hG' : finiteGroupOf n m perms = some G := hG'
    unfold finiteGroupOf at hG'
    simp only [Option.bind_eq_bind, Option.bind_eq_some_iff, Option.some.injEq] at hG'
    obtain ⟨_, _, _, _, _, _, _, _, _, _, rfl⟩ := hG'
    rfl
  have hsur : Function.Surjective (fun i : Fin m => f i) := by
    intro q
    obtain ⟨i, hi, hq⟩ := hs q
    exact ⟨⟨i, hi⟩, hq⟩
  have hcard : Nat.card (PresGroup n rels ⧸ PresGroup.sub (n := n) rels []) = m := by
    rw [sub_nil, ← hGm, ← hc]
    exact Subgroup.index_bot
  haveI : Finite (PresGroup n rels ⧸ PresGroup.sub (n := n) rels []) := Finite.of_surjective _ hsur
  haveI := Fintype.ofFinite (PresGroup n rels ⧸ PresGroup.sub (n := n) rels [])
  have hbij : Function.Bijective (fun i : Fin m => f i) := by
    rw [Fintype.bijective_iff_surjective_and_card]
    refine ⟨hsur, ?_⟩
    rw [Fintype.card_fin, ← hcard, Nat.card_eq_fintype_card]
  obtain ⟨hok, -, h⟩ := finite_group_of_injective hG' h0 hl hp f hf0 hf hs hbij.1
  exact ⟨hok, h⟩

/-- the relations of `C26_index_wrong`: `⟨a | a⁻¹aa⁻¹a⁻¹aa⁻¹, a⁻³, aa⁻¹aa⁻¹⟩`, a presentation of the trivial group -/
def badRels : List (List Nat) := [[1, 0, 1, 1, 0, 1], [1, 1, 1], [0, 1, 0, 1]]

theorem badRels_trivial : Subsingleton (PresGroup 1 badRels) := by
  have h1 := wordVal_rel (n := 1) (rels := badRels) (w := [1, 0, 1, 1, 0, 1]) (by decide)
  have h2 := wordVal_rel (n := 1) (rels := badRels) (w := [1, 1, 1]) (by decide)
  have hg : (PresGroup.gen 0 : PresGroup 1 badRels) = 1 := by
    simp only [wordVal, letterVal, List.map_cons, List.map_nil, List.prod_cons, List.prod_nil] at h1 h2
    norm_num at h1 h2
    have h3 : (PresGroup.gen 0 : PresGroup 1 badRels)⁻¹ * (PresGroup.gen 0)⁻¹ = 1 := by simpa using h1
    have h4 : (PresGroup.gen 0 : PresGroup 1 badRels)⁻¹ * ((PresGroup.gen 0)⁻¹ * (PresGroup.gen 0)⁻¹) = 1 := by simpa using h2
    rw [h3, mul_one] at h4
    exact inv_eq_one.1 h4
  have : ∀ x : PresGroup 1 badRels, x = 1 := by
    apply pres_induction
    · rfl
    · intro i x hx
      have : i = 0 := Subsingleton.elim _ _
      rw [this, hg, hx, mul_one]
    · intro i x hx
      have : i = 0 := Subsingleton.elim _ _
      rw [this, hg, hx, inv_one, mul_one]
  exact ⟨fun x y => by rw [this x, this y]⟩

theorem badRels_run : enumerateCosets 1 badRels [] = some (2, [[1, 0]]) :=
  enumF_spec 60 _ _ _ _ (by decide +kernel)

/-- C26 is violated: the returned count is not always the index (or even the order of the group): a presentation of the trivial group with one
generator is enumerated as having two elements. -/
theorem C26_index_wrong : ¬ ∀ (n m : Nat) (rels subs : List (List Nat)) (perms : List (List Nat)),
    enumerateCosets n rels subs = some (m, perms) → (PresGroup.sub (n := n) rels subs).index = m := by
  intro h
  have := h 1 2 badRels [] _ badRels_run
  haveI := badRels_trivial
  have h1 : (PresGroup.sub (n := 1) badRels []).index = 1 := by
    rw [Subgroup.index_eq_one]
    ext x
    simp [Subsingleton.elim x 1]
  omega

/-- C26 is violated for `into_finite_group` too: it returns the cyclic group of order two for the same presentation of the trivial group. -/
theorem C26_finite_group_wrong : ¬ ∀ (n : Nat) (rels : List (List Nat)) (G : Grp),
    intoFiniteGroup n rels = some G → Nat.card (PresGroup n rels) = G.n := by
  intro h
  have hr : intoFiniteGroup 1 badRels = some { n := 2, ident := 0, inv := [0, 1], mul := [[0, 1], [1, 0]] } := by
    unfold intoFiniteGroup
    rw [badRels_run]
    exact finiteF_spec 10 1 2 [[1, 0]] { n := 2, ident := 0, inv := [0, 1], mul := [[0, 1], [1, 0]] } (by decide +kernel)
  have hc := h 1 badRels _ hr
  haveI := badRels_trivial
  rw [Nat.card_unique] at hc
  simp at hc

/-- The positive theorems apply to a non-trivial run: `S₃ = ⟨a, b | a³, b², (ab)²⟩`, with and without the subgroup `⟨a⟩`. -/
example : enumerateCosets 2 [[0, 0, 0], [2, 2], [0, 2, 0, 2]] [] = some (6, [[1, 2, 0, 4, 5, 3], [3, 5, 4, 0, 2, 1]]) :=
  enumF_spec 60 _ _ _ _ (by decide +kernel)

example : enumerateCosets 2 [[0, 0, 0], [2, 2], [0, 2, 0, 2]] [[0]] = some (2, [[], [1, 0]]) :=
  enumF_spec 60 _ _ _ _ (by decide +kernel)

/-- and the certificate's hypotheses are met there -/
example : (PresGroup.sub (n := 2) [[0, 0, 0], [2, 2], [0, 2, 0, 2]] [[0]]).index = 2 := by
  refine (C26_certified_partial (m := 2) (perms := [[], [1, 0]]) (enumF_spec 60 _ _ _ _ (by decide +kernel)) (by omega)
    ![1, Equiv.swap 0 1] ?_ ?_ ?_ ?_).1
  · decide
  · decide
  · decide
  · intro i
    fin_cases i
    · exact ⟨1, one_mem _, rfl⟩
    · exact ⟨Equiv.swap 0 1, Subgroup.subset_closure ⟨1, rfl⟩, rfl⟩

/-- the infinite group with one generator and no relation: the model does not return -/
example : enumerateCosets 1 [] [] = none := by
  apply C26_infinite_never_returns
  haveI : Infinite (PresGroup 1 []) := by
    obtain ⟨φ, hφ⟩ := exists_lift (n := 1) (rels := []) (fun _ => Multiplicative.ofAdd (1 : ℤ)) (by simp)
    have hsur : Function.Surjective φ := by
      intro y
      refine ⟨PresGroup.gen 0 ^ (Multiplicative.toAdd y), ?_⟩
      rw [map_zpow, hφ]
      apply Multiplicative.toAdd.injective
      simp
    exact Infinite.of_surjective φ hsur
  have hmk : Function.Injective (fun x : PresGroup 1 [] => (x : PresGroup 1 [] ⧸ PresGroup.sub (n := 1) [] [])) := by
    intro x y hxy
    simp only at hxy
    rw [QuotientGroup.eq, sub_nil, Subgroup.mem_bot] at hxy
    exact inv_mul_eq_one.1 hxy
  exact Infinite.of_injective _ hmk

/-! ## C47: the presentation builder -/

theorem elemVal_append {G : Type*} [Group G] (v : Nat → G) (x y : Elem) : elemVal v (x ++ y) = elemVal v x * elemVal v y := by
  simp [elemVal]

theorem elemVal_inv {G : Type*} [Group G] (v : Nat → G) (x : Elem) (h : (0 : Int) ∉ x) : elemVal v x.inv = (elemVal v x)⁻¹ := by
  unfold elemVal Elem.inv
  rw [List.prod_inv_reverse, List.map_map, List.map_map, List.map_reverse]
  congr 2
  apply List.map_congr_left
  intro a ha
  have h0 : a ≠ 0 := fun e => h (e ▸ ha)
  simp only [Function.comp, Int.natAbs_neg]
  by_cases hlt : a < 0
  · rw [if_neg (by omega), if_pos hlt, inv_inv]
  · rw [if_pos (by omega), if_neg hlt]

theorem foldl_snoc (x acc : Elem) : x.foldl (fun acc a => acc ++ [a]) acc = acc ++ x := by
  induction x generalizing acc with
  | nil => simp
  | cons a t ih => rw [List.foldl_cons, ih]; simp

theorem elemVal_rep {G : Type*} [Group G] (v : Nat → G) (x : Elem) (k : Nat) :
    elemVal v ((List.range k).foldl (fun acc _ => x.foldl (fun acc a => acc ++ [a]) acc) []) = elemVal v x ^ k := by
  induction k with
  | zero => simp [elemVal]
  | succ k ih => rw [List.range_succ, List.foldl_append, List.foldl_cons, List.foldl_nil, foldl_snoc, elemVal_append, ih, pow_succ]

theorem rep_mem (x : Elem) (k : Nat) (a : Int)
    (h : a ∈ (List.range k).foldl (fun acc _ => x.foldl (fun acc a => acc ++ [a]) acc) ([] : Elem)) : a ∈ x := by
  induction k with
  | zero => simp at h
  | succ k ih =>
    rw [List.range_succ, List.foldl_append, List.foldl_cons, List.foldl_nil, foldl_snoc] at h
    rcases List.mem_append.1 h with h | h
    · exact ih h
    · exact h

theorem inv_mem_iff (x : Elem) (a : Int) : a ∈ x.inv ↔ -a ∈ x := by
  unfold Elem.inv
  simp only [List.mem_map, List.mem_reverse]
  constructor
  · rintro ⟨b, hb, rfl⟩; simpa using hb
  · intro h; exact ⟨-a, h, by simp⟩

theorem Elem.Built.nonzero {x : Elem} (h : x.Built) : (0 : Int) ∉ x := by
  induction h with
  | gen c p hc => simp [Pres.addGenerator]; omega
  | identity => simp [Elem.identity]
  | mul x y _ _ h1 h2 => simp [Elem.mul, h1, h2]
  | inv x _ h => rw [inv_mem_iff]; simpa using h
  | pow x n _ h =>
    unfold Elem.pow
    split
    · simp [Elem.identity]
    · split
      · rw [inv_mem_iff]; intro h'; exact h (by simpa using rep_mem _ _ _ h')
      · intro h'; exact h (rep_mem _ _ _ h')

/-- C47: element operations denote the group operations. -/
theorem C47_element_ops {G : Type*} [Group G] (v : Nat → G) (x y : Elem) (n : Int) (hx : x.Built) :
    elemVal v Elem.identity = 1 ∧ elemVal v (x.mul y) = elemVal v x * elemVal v y ∧ elemVal v x.inv = (elemVal v x)⁻¹ ∧
    elemVal v (x.pow n) = elemVal v x ^ n := by
  refine ⟨rfl, elemVal_append v x y, elemVal_inv v x hx.nonzero, ?_⟩
  unfold Elem.pow
  split
  · rename_i h; subst h; rw [zpow_zero]; rfl
  · split
    · rename_i h0 h
      rw [elemVal_inv _ _ (fun h' => hx.nonzero (rep_mem _ _ _ h')), elemVal_rep, ← zpow_natCast, Int.toNat_of_nonneg (by omega), zpow_neg, inv_inv]
    · rename_i h0 h
      rw [elemVal_rep, ← zpow_natCast, Int.toNat_of_nonneg (by omega)]

theorem addRelation_gens {p p' : Pres} {e : Elem} (h : p.addRelation e = some p') : p'.generators = p.generators := by
  unfold Pres.addRelation at h
  obtain ⟨w, -, rfl⟩ := Option.map_eq_some_iff.1 h
  rfl

theorem Pres.Built.inv {c : Nat} {p : Pres} (h : Pres.Built c p) :
    1 ≤ c ∧ (∀ g ∈ p.generators, 1 ≤ g.1 ∧ g.1 < c) ∧ (p.generators.map Prod.fst).Nodup ∧
      p.generators.map Prod.snd = List.range p.generators.length := by
  induction h with
  | new c hc => exact ⟨hc, by simp [Pres.new], by simp [Pres.new], by simp [Pres.new]⟩
  | gen c p _ ih =>
    obtain ⟨h1, h2, h3, h4⟩ := ih
    refine ⟨by simp [Pres.addGenerator], ?_, ?_, ?_⟩
    · intro g hg
      simp only [Pres.addGenerator, List.mem_append, List.mem_singleton] at hg ⊢
      rcases hg with hg | rfl
      · have := h2 g hg; omega
      · simp only; omega
    · simp only [Pres.addGenerator, List.map_append, List.map_cons, List.map_nil]
      rw [List.nodup_append]
      refine ⟨h3, by simp, ?_⟩
      intro a ha b hb
      obtain ⟨g, hg, rfl⟩ := List.mem_map.1 ha
      have := h2 g hg
      simp at hb
      omega
    · simp [Pres.addGenerator, h4, List.range_succ]
  | other c c' p _ hle ih =>
    obtain ⟨h1, h2, h3, h4⟩ := ih
    exact ⟨by omega, fun g hg => by have := h2 g hg; omega, h3, h4⟩
  | rel c p p' e _ he ih =>
    rw [addRelation_gens he]
    exact ih

theorem lookup_getElem {l : List (Nat × Nat)} (hnd : (l.map Prod.fst).Nodup) {k v : Nat} (h : l.lookup k = some v) :
    ∃ (i : Nat) (hi : i < l.length), l[i] = (k, v) := by
  induction l with
  | nil => cases h
  | cons a t ih =>
    rw [List.lookup_cons] at h
    split at h
    · rename_i e
      cases h
      refine ⟨0, by simp, ?_⟩
      simp only [beq_iff_eq] at e
      simp [e]
    · obtain ⟨i, hi, e⟩ := ih (List.nodup_cons.1 hnd).2 h
      exact ⟨i + 1, by simpa using hi, by simpa using e⟩

/-- C47: the word stored for an element has the element's value, in every group and for all values of the generators. -/
theorem C47_translate {c : Nat} {p : Pres} (hp : Pres.Built c p) {G : Type*} [Group G] (x : Fin p.generators.length → G) (v : Nat → G)
    (hv : p.Assigns x v) (e : Elem) (w : List Nat) (h : p.translate e = some w) :
    wordVal x w = elemVal v e ∧ ∀ d ∈ w, d < 2 * p.generators.length := by
  obtain ⟨-, h2, h3, h4⟩ := hp.inv
  have hlet : ∀ (i : Int) (d : Nat), p.letter i = some d →
      letterVal x d = (if i < 0 then (v i.natAbs)⁻¹ else v i.natAbs) ∧ d < 2 * p.generators.length := by
    intro i d hd
    unfold Pres.letter at hd
    split at hd
    · cases hd
    · split at hd
      · cases hd
      · rename_i idx hidx
        cases hd
        obtain ⟨j, hj, e⟩ := lookup_getElem h3 hidx
        have hij : idx = j := by
          have : (p.generators.map Prod.snd)[j]? = some idx := by
            rw [List.getElem?_map, List.getElem?_eq_getElem hj, e]; rfl
          rw [h4, List.getElem?_range hj] at this
          exact (Option.some.inj this).symm
        subst hij
        have hval := hv ⟨idx, hj⟩
        simp only [Fin.getElem_fin, e] at hval
        rw [hval]
        unfold letterVal
        by_cases hlt : i < 0
        · have e1 : (2 * idx + 1) / 2 = idx := by omega
          have e2 : (2 * idx + 1) % 2 = 1 := by omega
          simp [hlt, e1, e2, hj]; omega
        · have e1 : (2 * idx) / 2 = idx := by omega
          simp [hlt, e1, hj]
  unfold Pres.translate at h
  induction e generalizing w with
  | nil => cases h; exact ⟨rfl, by simp⟩
  | cons a t ih =>
    rw [List.mapM_cons] at h
    obtain ⟨d, hd, h⟩ := Option.bind_eq_some_iff.1 h
    obtain ⟨w', hw', h⟩ := Option.bind_eq_some_iff.1 h
    cases h
    obtain ⟨i1, i2⟩ := ih w' hw'
    obtain ⟨j1, j2⟩ := hlet a d hd
    refine ⟨?_, ?_⟩
    · simp only [wordVal, elemVal, List.map_cons, List.prod_cons] at i1 ⊢
      rw [i1, j1]
    · intro d' hd'
      rcases List.mem_cons.1 hd' with rfl | hd'
      · exact j2
      · exact i2 d' hd'

/-- C47: a new generator is distinct from all earlier ones (also those of other presentations, which used smaller counters) and is the last one. -/
theorem C47_add_generator {c : Nat} {p : Pres} (hp : Pres.Built c p) :
    (p.addGenerator c).2.1.generators.length = p.generators.length + 1 ∧
    (p.addGenerator c).2.1.translate (p.addGenerator c).2.2 = some [2 * p.generators.length] ∧
    p.translate (p.addGenerator c).2.2 = none ∧
    ∀ e w, p.translate e = some w → (p.addGenerator c).2.1.translate e = some w := by
  obtain ⟨h1, h2, h3, h4⟩ := hp.inv
  have hnone : p.generators.lookup c = none := by
    rw [List.lookup_eq_none_iff]
    intro g hg
    have := h2 g hg
    simp; omega
  have hlk : ∀ k, (p.generators ++ [(c, p.generators.length)]).lookup k = (p.generators.lookup k).or (if k = c then some p.generators.length else none) := by
    intro k
    rw [List.lookup_append]
    congr 1
    by_cases hk : k = c
    · simp [List.lookup_cons, hk]
    · have hb : (k == c) = false := by simp [hk]
      simp [List.lookup_cons, hk, hb]
  refine ⟨by simp [Pres.addGenerator], ?_, ?_, ?_⟩
  · simp only [Pres.addGenerator, Pres.translate, List.mapM_cons, List.mapM_nil, Pres.letter]
    rw [if_neg (by omega), Int.natAbs_natCast, hlk, hnone]
    simp
  · simp only [Pres.addGenerator, Pres.translate, List.mapM_cons, List.mapM_nil, Pres.letter]
    rw [if_neg (by omega), Int.natAbs_natCast, hnone]
    rfl
  · intro e w h
    unfold Pres.translate at *
    refine mapM_mono _ _ ?_ _ _ h
    intro a d hd
    unfold Pres.letter at hd ⊢
    simp only [Pres.addGenerator]
    split at hd
    · cases hd
    · rename_i h0
      rw [if_neg h0, hlk]
      split at hd
      · cases hd
      · rename_i idx hidx
        rw [hidx]; exact hd

/-- C47: `add_relation rel` imposes exactly `rel = 1`; `add_two_sided_relation rel1 rel2` exactly `rel1 = rel2`. -/
theorem C47_relations {c : Nat} {p : Pres} (hp : Pres.Built c p) {G : Type*} [Group G] (x : Fin p.generators.length → G) (v : Nat → G)
    (hv : p.Assigns x v) (e e' : Elem) (he' : e'.Built) :
    (∀ p', p.addRelation e = some p' → p'.generators = p.generators ∧
      ((∀ w ∈ p'.relations, wordVal x w = 1) ↔ (∀ w ∈ p.relations, wordVal x w = 1) ∧ elemVal v e = 1)) ∧
    (∀ p', p.addTwoSided e e' = some p' → p'.generators = p.generators ∧
      ((∀ w ∈ p'.relations, wordVal x w = 1) ↔ (∀ w ∈ p.relations, wordVal x w = 1) ∧ elemVal v e = elemVal v e')) := by
  have key : ∀ e p', p.addRelation e = some p' → p'.generators = p.generators ∧
      ((∀ w ∈ p'.relations, wordVal x w = 1) ↔ (∀ w ∈ p.relations, wordVal x w = 1) ∧ elemVal v e = 1) := by
    intro e p' h
    refine ⟨addRelation_gens h, ?_⟩
    unfold Pres.addRelation at h
    obtain ⟨w, hw, rfl⟩ := Option.map_eq_some_iff.1 h
    have := (C47_translate hp x v hv e w hw).1
    simp only [List.mem_append, List.mem_singleton]
    rw [← this]
    constructor
    · intro h; exact ⟨fun w hw => h w (Or.inl hw), h w (Or.inr rfl)⟩
    · rintro ⟨h1, h2⟩ w' (hw' | rfl)
      · exact h1 w' hw'
      · exact h2
  refine ⟨key e, ?_⟩
  intro p' h
  obtain ⟨h1, h2⟩ := key _ p' h
  refine ⟨h1, h2.trans ?_⟩
  rw [show elemVal v (e.mul e'.inv) = elemVal v e * (elemVal v e')⁻¹ by
    rw [Elem.mul, elemVal_append, elemVal_inv _ _ he'.nonzero], mul_inv_eq_one]

/-- a presentation of `S₃` built through the API -/
example : ∃ c p, Pres.Built c p ∧ p.generators.length = 2 ∧ p.relations = [[0, 0, 0], [2, 2], [0, 2, 0, 2]] ∧
    p.enumerateElements = some (6, [[1, 2, 0, 4, 5, 3], [3, 5, 4, 0, 2, 1]]) := by
  let p0 := Pres.new
  let a : Elem := (p0.addGenerator 5).2.2
  let p1 := (p0.addGenerator 5).2.1
  let b : Elem := (p1.addGenerator 9).2.2
  let p2 := (p1.addGenerator 9).2.1
  obtain ⟨p3, h3⟩ : ∃ p3, p2.addRelation (a.pow 3) = some p3 := ⟨_, rfl⟩
  obtain ⟨p4, h4⟩ : ∃ p4, p3.addRelation (b.pow 2) = some p4 := by cases h3; exact ⟨_, rfl⟩
  obtain ⟨p5, h5⟩ : ∃ p5, p4.addRelation ((a.mul b).pow 2) = some p5 := by cases h3; cases h4; exact ⟨_, rfl⟩
  refine ⟨10, p5, .rel _ _ _ _ (.rel _ _ _ _ (.rel _ _ _ _ (.gen 9 _ (.other 6 9 _ (.gen 5 _ (.new 5 (by omega))) (by omega))) h3) h4) h5, ?_⟩
  cases h3; cases h4; cases h5
  exact ⟨rfl, rfl, enumF_spec 60 _ _ _ _ (by decide +kernel)⟩

end Verif.ToddCoxeter
