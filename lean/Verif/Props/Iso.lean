import Verif.Proofs.FindIso
import Verif.Props.Table

/-!
# Properties C23, C24, C46: generating sets, homomorphism extension, isomorphism search

`G.Elem` is the group read off the tables (Spec/Table.lean); `Tabulates`, `WordsOk`, `Represents` are in Spec/Iso.lean.
-/

namespace Verif.Table

/-! ## C23 -/

theorem forall₂_gens {G : VGrp} (s : GenSet) (h : ∀ i, i < s.gens.length → s.gens.getD i 0 < G.g.n) (w : List Nat) (hw : ∀ i ∈ w, i < s.gens.length) :
    ∃ l : List G.Elem, List.Forall₂ (G.IsGen s) w l ∧ l.map VGrp.Elem.idx = w.map fun i => s.gens.getD i 0 := by
  induction w with
  | nil => exact ⟨[], .nil, rfl⟩
  | cons a t ih =>
    obtain ⟨l, h1, h2⟩ := ih (fun i hi => hw i (by simp [hi]))
    have ha := hw a (by simp)
    refine ⟨G.el _ (h a ha) :: l, .cons ?_ h1, ?_⟩
    · exact getElem?_of_getD ha
    · simp only [List.map_cons, h2]; rfl

theorem genOk_wordsOk {G : VGrp} (s : GenSet) (h : GenOk G s) : G.WordsOk s := by
  refine ⟨?_, h.len, ?_⟩
  · intro g hg
    obtain ⟨i, hi, rfl⟩ := List.getElem_of_mem hg
    have := h.genLt i hi
    rwa [List.getD_eq_getElem _ _ hi] at this
  · intro x
    have hx : x.idx < s.words.length := by rw [h.len]; exact idx_lt x
    obtain ⟨h1, h2⟩ := h.word x.idx (idx_lt x)
    rw [List.getD_eq_getElem _ _ hx] at h1 h2
    obtain ⟨l, l1, l2⟩ := forall₂_gens s h.genLt _ h1
    refine ⟨_, List.getElem?_eq_getElem hx, l, l1, ?_⟩
    apply Elem.ext
    rw [← mulMany_spec, l2, h2]

/-- `generating_set()` always returns (no panic, no divergence), whatever elements the hash order selects: its generators generate the group,
the word stored for each element evaluates to it, and there are at most `log₂ |G|` generators. -/
theorem C23_generating_set (G : VGrp) (o : Oracle) :
    ∃ s, generatingSet G.g o = some s ∧ G.WordsOk s ∧ Subgroup.closure {x : G.Elem | x.idx ∈ s.gens} = ⊤ ∧ 2 ^ s.gens.length ≤ G.g.n := by
  obtain ⟨s, h1, h2⟩ := generatingSet_spec (G := G) o
  refine ⟨s, h1, genOk_wordsOk s h2, ?_, h2.pow⟩
  rw [eq_top_iff]
  intro x _
  have := generators_closure s h2 x
  exact Subgroup.closure_toSubmonoid_le_of x this
where
  Subgroup.closure_toSubmonoid_le_of {S : Set G.Elem} (x : G.Elem) (h : x ∈ Submonoid.closure S) : x ∈ Subgroup.closure S :=
    (Submonoid.closure_le (S := (Subgroup.closure S).toSubmonoid)).2 Subgroup.subset_closure h

/-- Every generating set the API can build (also by `small_generating_set`) has correct words and passes `check_state`. -/
theorem C23_built (G : VGrp) (s : GenSet) (hs : GenSet.Built G s) : G.WordsOk s ∧ s.check G.g = some true := by
  have h := built_ok s hs
  refine ⟨genOk_wordsOk s h, ?_⟩
  unfold GenSet.check
  have h1 : (s.gens.all fun g => decide (g < G.g.n)) = true := by
    simpa using (genOk_wordsOk s h).1
  rw [h1, thenO_some, if_pos rfl, thenO_some, if_pos (by simpa using h.len)]
  rw [allO_some _ _ (fun _ => true)]
  · simp
  · intro x hx
    rw [List.mem_range] at hx
    obtain ⟨h2, h3⟩ := h.word x hx
    rw [mapM_getElem?_of_lt _ _ h2, Option.map_some, h3]
    simp

/-- `check_state` accepts exactly the correct generating sets. -/
theorem C23_check_state (G : VGrp) (s : GenSet) : s.check G.g = some true ↔ G.WordsOk s := by
  have hall : ∀ {α : Type} (l : List α) (f : α → Option Bool), allO l f = some true ↔ ∀ x ∈ l, f x = some true := by
    intro α l f
    induction l with
    | nil => simp [allO]
    | cons a t ih =>
      rw [allO]
      rcases h : f a with _ | _ | _
      · simp [h]
      · simp [h]
      · simp [h, ih]
  have hthen : ∀ (a : Bool) (b : Option Bool), thenO (some a) b = some true ↔ a = true ∧ b = some true := by
    intro a b; cases a <;> simp [thenO]
  unfold GenSet.check
  rw [hthen, hthen, hall]
  simp only [List.all_eq_true, decide_eq_true_eq, List.mem_range]
  constructor
  · rintro ⟨h1, h2, h3⟩
    refine ⟨h1, h2, ?_⟩
    intro x
    have hx : x.idx < s.words.length := by rw [h2]; exact idx_lt x
    have h4 := h3 x.idx (idx_lt x)
    rw [List.getD_eq_getElem _ _ hx] at h4
    refine ⟨_, List.getElem?_eq_getElem hx, ?_⟩
    rcases hw : wordImages s.gens s.words[x.idx] with _ | l
    · rw [hw] at h4; simp at h4
    · rw [hw] at h4
      simp only [Option.map_some, Option.some.injEq, beq_iff_eq] at h4
      obtain ⟨l1, l2⟩ := (mapM_option_spec (fun g => s.gens[g]?) s.words[x.idx]).1 l hw
      have hlt : ∀ i ∈ s.words[x.idx], i < s.gens.length := by
        intro i hi
        obtain ⟨j, hj, rfl⟩ := List.getElem_of_mem hi
        obtain ⟨b, hb1, hb2⟩ := l2 j _ (List.getElem?_eq_getElem hj)
        by_contra hge
        rw [List.getElem?_eq_none (by omega)] at hb2; cases hb2
      obtain ⟨l', g1, g2⟩ := forall₂_gens (G := G) s (fun i hi => by
        rw [List.getD_eq_getElem _ _ hi]; exact h1 _ (List.getElem_mem _)) _ hlt
      rw [mapM_getElem?_of_lt _ _ hlt] at hw
      refine ⟨l', g1, Elem.ext ?_⟩
      rw [← mulMany_spec, g2, Option.some.inj hw, ← h4]
  · rintro ⟨h1, h2, h3⟩
    refine ⟨h1, h2, ?_⟩
    intro x hx
    obtain ⟨w, e, l, hl, hp⟩ := h3 (G.el x hx)
    rw [idx_el] at e
    have hw : s.words.getD x [] = w := by unfold List.getD; rw [e]; rfl
    rw [hw]
    have : wordImages s.gens w = some (l.map VGrp.Elem.idx) := by
      clear hp hw e
      unfold wordImages
      induction hl with
      | nil => rfl
      | cons ha _ ih =>
        rw [List.mapM_cons, ih, ha]; rfl
    rw [this, Option.map_some, mulMany_spec, hp, idx_el]
    simp

/-- `generated_homomorphism(f)` is an error exactly when `f` has the wrong length or an entry outside the range group. -/
theorem C23_generated_homomorphism_err (D R : VGrp) (s : GenSet) (hs : GenSet.Built D s) (f : List Nat) :
    generatedHomomorphism D.g R.g s f = some .err ↔ ¬ (f.length = s.gens.length ∧ ∀ y ∈ f, y < R.g.n) := by
  have h := built_ok s hs
  constructor
  · rintro e ⟨h1, h2⟩
    obtain ⟨g1, g2⟩ := generatedHom_spec (R := R) s h f h1 h2
    by_cases hex : ∃ φ : D.Elem →* R.Elem, ∀ (i : Nat) (x : D.Elem), s.gens[i]? = some x.idx → f[i]? = some (φ x).idx
    · obtain ⟨φ, hφ⟩ := hex
      obtain ⟨func, e', -⟩ := g1 φ hφ
      rw [e] at e'; cases e'
    · rw [e] at g2; exact absurd (g2 hex) (by simp)
  · intro hn
    unfold generatedHomomorphism
    by_cases h1 : f.length = s.gens.length
    · rw [if_neg (by simpa using h1), if_pos]
      have : ¬ ∀ y ∈ f, y < R.g.n := fun h2 => hn ⟨h1, h2⟩
      simpa using this
    · rw [if_pos h1]

/-- Otherwise it never panics: it returns the table of the homomorphism sending the `i`-th generator to `f[i]` if there is one, and `None` if there is
none. -/
theorem C23_generated_homomorphism (D R : VGrp) (s : GenSet) (hs : GenSet.Built D s) (f : List Nat) (hl : f.length = s.gens.length)
    (hf : ∀ y ∈ f, y < R.g.n) :
    (∀ φ : D.Elem →* R.Elem, (∀ (i : Nat) (x : D.Elem), s.gens[i]? = some x.idx → f[i]? = some (φ x).idx) →
      ∃ func, generatedHomomorphism D.g R.g s f = some (.hom func) ∧ Tabulates func φ) ∧
    ((¬ ∃ φ : D.Elem →* R.Elem, ∀ (i : Nat) (x : D.Elem), s.gens[i]? = some x.idx → f[i]? = some (φ x).idx) →
      generatedHomomorphism D.g R.g s f = some .none) :=
  generatedHom_spec s (built_ok s hs) f hl hf

/-- A homomorphism is determined by the images of the generators (so the one returned is unique). -/
theorem C23_hom_unique (D R : VGrp) (s : GenSet) (hs : GenSet.Built D s) (φ ψ : D.Elem →* R.Elem)
    (h : ∀ x : D.Elem, x.idx ∈ s.gens → φ x = ψ x) : φ = ψ := by
  ext1 x
  have := generators_closure s (built_ok s hs) x
  exact MonoidHom.eqOn_closureM (s := {y : D.Elem | y.idx ∈ s.gens}) (fun y hy => h y hy) this

/-! ## C46 -/

/-- `small_generating_set(Some(a))` on a non-trivial group, `a > 0`: returns a generating set, no larger than the first one found. -/
theorem C46_small_generating_set_partial (G : VGrp) (os : Nat → Oracle) (a : Nat) (ha : 0 < a) (hn : 1 < G.g.n) :
    ∃ s s0, smallGeneratingSet G.g os a = some s ∧ G.WordsOk s ∧ generatingSet G.g (os 0) = some s0 ∧ s.gens.length ≤ s0.gens.length := by
  unfold smallGeneratingSet
  rw [if_neg (by omega)]
  obtain ⟨s0, h1, h2⟩ := generatingSet_spec (G := G) (os 0)
  rw [h1]
  obtain ⟨s, g1, g2, g3⟩ := smallLoop_spec os hn (List.range (a - 1)) s0 h2
  exact ⟨s, s0, g1, genOk_wordsOk s g2, rfl, g3⟩

/-- The trivial group: with two or more attempts (the default is 12) the call panics, because `size() - 1` underflows. -/
theorem C46_small_generating_set_trivial_panics (G : VGrp) (os : Nat → Oracle) (a : Nat) (ha : 2 ≤ a) (hn : G.g.n = 1) :
    smallGeneratingSet G.g os a = none := by
  unfold smallGeneratingSet
  rw [if_neg (by omega)]
  obtain ⟨s0, h1, h2⟩ := generatingSet_spec (G := G) (os 0)
  rw [h1]
  simp only [Option.bind_eq_bind, Option.bind_some]
  have h0 : s0.gens.length = 0 := by
    have := h2.pow
    rw [hn] at this
    by_contra hne
    have : 2 ^ 1 ≤ 2 ^ s0.gens.length := Nat.pow_le_pow_right (by omega) (by omega)
    omega
  obtain ⟨b, rfl⟩ : ∃ b, a = b + 2 := ⟨a - 2, by omega⟩
  rw [show b + 2 - 1 = b + 1 by omega, List.range_succ_eq_map, List.foldlM_cons]
  unfold smallAttempt
  rw [if_pos h0]
  rfl

/-! ## C24 -/

/-- `Homomorphism::check_state` accepts exactly the tables of group homomorphisms. -/
theorem C24_hom_check (D R : VGrp) (func : List Nat) : homCheck D.g R.g func = true ↔ ∃ φ : D.Elem →* R.Elem, Tabulates func φ :=
  homCheck_iff func

/-- `Isomorphism::check_state` accepts exactly the pairs of tables of an isomorphism and its inverse. -/
theorem C24_iso_check (D R : VGrp) (f : Iso) : f.check D.g R.g = true ↔ ∃ φ : D.Elem ≃* R.Elem, f.Represents φ :=
  isoCheck_iff f

/-- `to_isomorphism` of a homomorphism: never panics; `Some` with the inverse table if it is bijective, `None` otherwise. -/
theorem C24_to_isomorphism (D R : VGrp) (func : List Nat) (φ : D.Elem →* R.Elem) (hφ : Tabulates func φ) :
    (∀ hb : Function.Bijective φ, ∃ f : Iso, toIsomorphism D.g R.g func = some (some f) ∧ f.Represents (MulEquiv.ofBijective φ hb)) ∧
    (¬ Function.Bijective φ → toIsomorphism D.g R.g func = some none) :=
  toIso_spec func φ hφ

/-- `find_isomorphism` always returns; it returns an isomorphism if the groups are isomorphic, and `None` if they are not — for every hash order, every
sequence of generating-set choices, and every value of `usize::MAX`. -/
theorem C24_find_isomorphism (D R : VGrp) (umax : Nat) (os : Nat → Oracle) :
    (Nonempty (D.Elem ≃* R.Elem) → ∃ f, findIsomorphism umax D.g R.g os = some (some f) ∧ ∃ φ : D.Elem ≃* R.Elem, f.Represents φ) ∧
    (¬ Nonempty (D.Elem ≃* R.Elem) → findIsomorphism umax D.g R.g os = some none) := by
  obtain ⟨r, h1, h2, h3⟩ := findIsomorphism_spec (D := D) (R := R) umax os
  rcases r with _ | f
  · exact ⟨fun h => absurd h (h3 rfl), fun _ => h1⟩
  · obtain ⟨φ, hφ⟩ := h2 f rfl
    exact ⟨fun _ => ⟨f, h1, φ, hφ⟩, fun h => absurd ⟨φ⟩ h⟩

/-- a concrete isomorphism pair (inversion of the cyclic subgroup of `D₃` composed with the identity on reflections: `s r^i ↦ s r^{-i}`), accepted -/
example : Iso.check D3.g D3.g ⟨[0, 2, 1, 3, 5, 4], [0, 2, 1, 3, 5, 4]⟩ = true := by decide +kernel
example : Iso.check D3.g D3.g ⟨[0, 1, 2, 3, 5, 4], [0, 1, 2, 3, 5, 4]⟩ = false := by decide +kernel
/-- the hypotheses of the homomorphism theorems are met: `generating_set` of `D₃`, with non-trivial generators -/
example (o : Oracle) : ∃ s, GenSet.Built D3 s ∧ s.gens ≠ [] := by
  obtain ⟨s, h1, h2⟩ := generatingSet_spec (G := D3) o
  refine ⟨s, .generatingSet o s h1, ?_⟩
  have := genOk_nonempty s h2 (by decide)
  intro e; rw [e] at this; simp at this
example : 1 < D3.g.n := by decide
/-- the trivial group exists as a table -/
example : ∃ G : VGrp, G.g.n = 1 := by
  have h := (C13_new_iff_group 1 0 [0] [[0]])
  by_cases hg : IsGroup { n := 1, ident := 0, inv := [0], mul := [[0]] }
  · exact ⟨⟨_, hg⟩, rfl⟩
  · have h2 := h.2 hg
    have : Grp.new 1 0 [0] [[0]] = some (some { n := 1, ident := 0, inv := [0], mul := [[0]] }) := by decide +kernel
    rw [this] at h2; cases h2

end Verif.Table
