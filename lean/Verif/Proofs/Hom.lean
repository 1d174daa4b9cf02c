import Verif.Spec.Iso
import Verif.Proofs.GenSet
import Verif.Proofs.TableCons
import Mathlib.Algebra.Group.Subgroup.Basic

/-! Homomorphisms determined by generators. -/

namespace Verif.Table

/-! ## small generating sets -/

theorem smallAttempt_spec {G : VGrp} (o : Oracle) (s : GenSet) (h : GenOk G s) (hpos : s.gens.length ≠ 0) :
    ∃ s', smallAttempt G.g o s = some s' ∧ GenOk G s' ∧ s'.gens.length ≤ s.gens.length := by
  unfold smallAttempt
  rw [if_neg hpos]
  obtain ⟨r, h1, h2, -⟩ := tryFind_spec (G := G) o (some (s.gens.length - 1))
  rw [h1]
  rcases r with _ | s'
  · exact ⟨s, rfl, h, le_refl _⟩
  · obtain ⟨g1, g2⟩ := h2 s' rfl
    have := g2 _ rfl
    exact ⟨s', rfl, g1, by omega⟩

theorem genOk_nonempty {G : VGrp} (s : GenSet) (h : GenOk G s) (hn : 1 < G.g.n) : s.gens.length ≠ 0 := by
  intro h0
  obtain ⟨x, hx, hne⟩ : ∃ x, x < G.g.n ∧ x ≠ G.g.ident := by
    by_cases e : G.g.ident = 0
    · exact ⟨1, hn, by omega⟩
    · exact ⟨0, by omega, fun e' => e e'.symm⟩
  obtain ⟨h1, h2⟩ := h.word x hx
  have : s.words.getD x [] = [] := by
    rcases hw : s.words.getD x [] with _ | ⟨i, t⟩
    · rfl
    · have := h1 i (by rw [hw]; simp)
      omega
  rw [this] at h2
  exact hne h2.symm

theorem smallLoop_spec {G : VGrp} (os : Nat → Oracle) (hn : 1 < G.g.n) (l : List Nat) (s : GenSet) (h : GenOk G s) :
    ∃ s', l.foldlM (fun s i => smallAttempt G.g (os (i + 1)) s) s = some s' ∧ GenOk G s' ∧ s'.gens.length ≤ s.gens.length := by
  induction l generalizing s with
  | nil => exact ⟨s, rfl, h, le_refl _⟩
  | cons i t ih =>
    obtain ⟨s1, h1, h2, h3⟩ := smallAttempt_spec (os (i + 1)) s h (genOk_nonempty s h hn)
    obtain ⟨s2, g1, g2, g3⟩ := ih s1 h2
    refine ⟨s2, ?_, g2, by omega⟩
    rw [List.foldlM_cons, h1]
    exact g1

theorem smallLoop_ok {G : VGrp} (os : Nat → Oracle) (l : List Nat) (s s' : GenSet) (h : GenOk G s)
    (hr : l.foldlM (fun s i => smallAttempt G.g (os (i + 1)) s) s = some s') : GenOk G s' := by
  induction l generalizing s with
  | nil => cases hr; exact h
  | cons i t ih =>
    rw [List.foldlM_cons] at hr
    rcases e : smallAttempt G.g (os (i + 1)) s with _ | s1
    · rw [e] at hr; cases hr
    · rw [e] at hr
      by_cases h0 : s.gens.length = 0
      · unfold smallAttempt at e; rw [if_pos h0] at e; cases e
      · obtain ⟨s2, h1, h2, -⟩ := smallAttempt_spec (os (i + 1)) s h h0
        rw [h1] at e; cases e
        exact ih s1 h2 hr

theorem small_ok {G : VGrp} (os : Nat → Oracle) (a : Nat) (s : GenSet) (hr : smallGeneratingSet G.g os a = some s) : GenOk G s := by
  unfold smallGeneratingSet at hr
  split at hr
  · cases hr
  · obtain ⟨s0, h1, h2⟩ := generatingSet_spec (G := G) (os 0)
    rw [h1] at hr
    exact smallLoop_ok os _ s0 s h2 hr

theorem built_ok {G : VGrp} (s : GenSet) (h : GenSet.Built G s) : GenOk G s := by
  cases h with
  | generatingSet o _ h =>
    obtain ⟨s', h1, h2⟩ := generatingSet_spec (G := G) o
    rw [h1] at h; cases h; exact h2
  | small os a _ h => exact small_ok os a s h

/-! ## words -/

theorem mapM_getElem?_of_lt (f : List Nat) (w : List Nat) (h : ∀ i ∈ w, i < f.length) : wordImages f w = some (w.map fun i => f.getD i 0) := by
  unfold wordImages
  induction w with
  | nil => rfl
  | cons a t ih =>
    have ha := h a (by simp)
    rw [List.mapM_cons, ih (fun i hi => h i (by simp [hi])), List.getElem?_eq_getElem ha]
    simp [List.getElem?_eq_getElem ha]

theorem getElem?_of_getD {l : List Nat} {i : Nat} (h : i < l.length) : l[i]? = some (l.getD i 0) := by
  rw [List.getD_eq_getElem _ _ h, List.getElem?_eq_getElem h]

theorem tabulates_getD {D R : VGrp} {func : List Nat} {φ : D.Elem → R.Elem} (h : Tabulates func φ) (x : D.Elem) :
    func.getD x.idx 0 = (φ x).idx := by
  have := h.2 x
  unfold List.getD; rw [this]; rfl

theorem tabulates_inj {D R : VGrp} {func : List Nat} {φ ψ : D.Elem → R.Elem} (h1 : Tabulates func φ) (h2 : Tabulates func ψ) : φ = ψ := by
  funext x
  apply Elem.ext
  rw [← tabulates_getD h1, ← tabulates_getD h2]

theorem tabulates_unique {D R : VGrp} {func func' : List Nat} {φ : D.Elem → R.Elem} (h1 : Tabulates func φ) (h2 : Tabulates func' φ) : func = func' := by
  apply List.ext_getElem (by rw [h1.1, h2.1])
  intro i g1 g2
  have hi : i < D.g.n := by rw [← h1.1]; exact g1
  have e1 := h1.2 (D.el i hi)
  have e2 := h2.2 (D.el i hi)
  rw [idx_el] at e1 e2
  rw [List.getElem?_eq_getElem g1] at e1
  rw [List.getElem?_eq_getElem g2] at e2
  rw [← e2] at e1
  exact Option.some.inj e1

theorem exists_tab {D R : VGrp} (φ : D.Elem → R.Elem) : ∃ func, Tabulates func φ := by
  refine ⟨List.ofFn fun x : Fin D.g.n => (φ x).idx, by simp, ?_⟩
  intro x
  rw [List.getElem?_eq_getElem (by simpa using idx_lt x)]
  rw [List.getElem_ofFn]
  rfl

/-- every list of in-range entries tabulates a function -/
theorem exists_fun {D R : VGrp} (func : List Nat) (hl : func.length = D.g.n) (hr : ∀ x, x < D.g.n → func.getD x 0 < R.g.n) :
    ∃ φ : D.Elem → R.Elem, Tabulates func φ := by
  refine ⟨fun x => R.el (func.getD x.idx 0) (hr _ (idx_lt x)), hl, ?_⟩
  intro x
  rw [idx_el]
  exact getElem?_of_getD (by rw [hl]; exact idx_lt x)

theorem homCheck_iff {D R : VGrp} (func : List Nat) :
    homCheck D.g R.g func = true ↔ ∃ φ : D.Elem →* R.Elem, Tabulates func φ := by
  unfold homCheck
  simp only [Bool.and_eq_true, decide_eq_true_eq, List.all_eq_true, List.mem_range, beq_iff_eq]
  constructor
  · rintro ⟨⟨h1, h2⟩, h3⟩
    obtain ⟨φ, hφ⟩ := exists_fun (D := D) (R := R) func h1 h2
    refine ⟨MonoidHom.mk' φ ?_, hφ⟩
    intro x y
    apply Elem.ext
    rw [idx_mul, ← tabulates_getD hφ, ← tabulates_getD hφ, ← tabulates_getD hφ, idx_mul]
    exact h3 _ (idx_lt x) _ (idx_lt y)
  · rintro ⟨φ, hφ⟩
    refine ⟨⟨hφ.1, ?_⟩, ?_⟩
    · intro x hx
      have := tabulates_getD hφ (D.el x hx)
      rw [idx_el] at this
      rw [this]; exact idx_lt _
    · intro x hx y hy
      have e1 := tabulates_getD hφ (D.el x hx)
      have e2 := tabulates_getD hφ (D.el y hy)
      have e3 := tabulates_getD hφ (D.el x hx * D.el y hy)
      rw [idx_el] at e1 e2
      rw [idx_mul, idx_el, idx_el, map_mul, idx_mul] at e3
      rw [e1, e2, e3]

/-- evaluation of a word of in-range letters is a product -/
theorem word_prod {R : VGrp} (l : List Nat) (h : ∀ x ∈ l, x < R.g.n) : ∃ l' : List R.Elem, l = l'.map VGrp.Elem.idx ∧ R.g.mulMany l = l'.prod.idx := by
  have : l = (l.attach.map fun x => R.el x.1 (h x.1 x.2)).map VGrp.Elem.idx := by
    rw [List.map_map]
    conv_lhs => rw [← List.attach_map_subtype_val l]
    rfl
  refine ⟨_, this, ?_⟩
  rw [← mulMany_spec]
  exact congrArg _ this

theorem homTable_eq {D R : VGrp} (s : GenSet) (h : GenOk D s) (f : List Nat) (hf : f.length = s.gens.length) :
    homTable D.g R.g s f = some ((List.range D.g.n).map fun x => R.g.mulMany ((s.words.getD x []).map fun i => f.getD i 0)) := by
  unfold homTable
  rw [mapM_some_of' (g := fun x => R.g.mulMany ((s.words.getD x []).map fun i => f.getD i 0))]
  intro x hx
  rw [mapM_getElem?_of_lt]
  · rfl
  · intro i hi
    rw [hf]; exact (h.word x (List.mem_range.1 hx)).1 i hi

theorem getD_map_range {n : Nat} (g : Nat → Nat) (x : Nat) (hx : x < n) : ((List.range n).map g).getD x 0 = g x := by
  rw [List.getD_eq_getElem (l := List.map _ _) _ (by simpa using hx)]; simp

/-- the value on the word `w` of a homomorphism sending the generators to `f` -/
theorem hom_word {D R : VGrp} (s : GenSet) (h : GenOk D s) (f : List Nat) (hf : f.length = s.gens.length)
    (φ : D.Elem → R.Elem) (h1 : φ 1 = 1) (hmul : ∀ x g : D.Elem, g.idx ∈ s.gens → φ (x * g) = φ x * φ g)
    (hgen : ∀ (i : Nat) (x : D.Elem), s.gens[i]? = some x.idx → f[i]? = some (φ x).idx) :
    ∀ w : List Nat, (∀ i ∈ w, i < s.gens.length) → ∀ x : D.Elem, D.g.mulMany (w.map fun i => s.gens.getD i 0) = x.idx →
      R.g.mulMany (w.map fun i => f.getD i 0) = (φ x).idx ∧ ∀ y ∈ w.map fun i => f.getD i 0, y < R.g.n := by
  intro w
  induction w using List.reverseRecOn with
  | nil =>
    intro _ x e
    have : x = 1 := Elem.ext e.symm
    rw [this, h1]; exact ⟨rfl, by simp⟩
  | append_singleton w i ih =>
    intro hw x e
    rw [List.map_append, List.map_singleton] at e
    have hlt : ∀ y ∈ w.map fun i => s.gens.getD i 0, y < D.g.n := by
      intro y hy
      obtain ⟨j, hj, rfl⟩ := List.mem_map.1 hy
      exact h.genLt j (hw j (by simp [hj]))
    have hi : i < s.gens.length := hw i (by simp)
    rw [mulMany_concat _ hlt _ (h.genLt i hi)] at e
    obtain ⟨ih1, ih2⟩ := ih (fun j hj => hw j (by simp [hj])) (D.el _ (mulMany_lt _ hlt)) rfl
    have hfi := hgen i (D.el _ (h.genLt i hi)) (getElem?_of_getD hi)
    have hfi' : f.getD i 0 = (φ (D.el _ (h.genLt i hi))).idx := by unfold List.getD; rw [hfi]; rfl
    have hx : x = D.el _ (mulMany_lt _ hlt) * D.el _ (h.genLt i hi) := Elem.ext e.symm
    have hall : ∀ y ∈ (w ++ [i]).map fun i => f.getD i 0, y < R.g.n := by
      intro y hy
      rw [List.map_append, List.mem_append, List.map_singleton, List.mem_singleton] at hy
      rcases hy with hy | rfl
      · exact ih2 y hy
      · rw [hfi']; exact idx_lt _
    refine ⟨?_, hall⟩
    rw [List.map_append, List.map_singleton, mulMany_concat _ ih2 _ (by rw [hfi']; exact idx_lt _), ih1, hfi', hx,
      hmul _ _ (by
        rw [idx_el, List.getD_eq_getElem _ _ hi]; exact List.getElem_mem _), idx_mul]

theorem generators_closure {D : VGrp} (s : GenSet) (h : GenOk D s) (x : D.Elem) : x ∈ Submonoid.closure {y : D.Elem | y.idx ∈ s.gens} := by
  obtain ⟨h1, h2⟩ := h.word x.idx (idx_lt x)
  have key : ∀ w : List Nat, (∀ i ∈ w, i < s.gens.length) → ∀ x : D.Elem, D.g.mulMany (w.map fun i => s.gens.getD i 0) = x.idx →
      x ∈ Submonoid.closure {x : D.Elem | x.idx ∈ s.gens} := by
    intro w
    induction w using List.reverseRecOn with
    | nil =>
      intro _ x e
      have : x = 1 := Elem.ext e.symm
      rw [this]; exact one_mem _
    | append_singleton w i ih =>
      intro hw x e
      rw [List.map_append, List.map_singleton] at e
      have hlt : ∀ y ∈ w.map fun i => s.gens.getD i 0, y < D.g.n := by
        intro y hy
        obtain ⟨j, hj, rfl⟩ := List.mem_map.1 hy
        exact h.genLt j (hw j (by simp [hj]))
      have hi : i < s.gens.length := hw i (by simp)
      rw [mulMany_concat _ hlt _ (h.genLt i hi)] at e
      have : x = D.el _ (mulMany_lt _ hlt) * D.el _ (h.genLt i hi) := Elem.ext e.symm
      rw [this]
      apply mul_mem
      · exact ih (fun j hj => hw j (by simp [hj])) _ rfl
      · apply Submonoid.subset_closure
        change s.gens.getD i 0 ∈ s.gens
        rw [List.getD_eq_getElem _ _ hi]; exact List.getElem_mem _
  exact key _ h1 x h2

/-- A function multiplicative in the generators is multiplicative. -/
theorem mul_of_gens {D R : VGrp} (s : GenSet) (h : GenOk D s) (φ : D.Elem → R.Elem)
    (hmul : ∀ x g : D.Elem, g.idx ∈ s.gens → φ (x * g) = φ x * φ g) (h1 : φ 1 = 1) (x y : D.Elem) : φ (x * y) = φ x * φ y := by
  have hy := generators_closure s h y
  induction hy using Submonoid.closure_induction_right generalizing x with
  | one => rw [mul_one, h1, mul_one]
  | mul_right z hz g hg ih =>
    have hzm : φ (z * g) = φ z * φ g := hmul z g hg
    rw [hzm, ← mul_assoc, hmul _ _ hg, ih, mul_assoc]

/-- the specification of `generated_homomorphism` -/
theorem generatedHom_spec {D R : VGrp} (s : GenSet) (h : GenOk D s) (f : List Nat) (hf : f.length = s.gens.length) (hr : ∀ y ∈ f, y < R.g.n) :
    (∀ (φ : D.Elem →* R.Elem), (∀ (i : Nat) (x : D.Elem), s.gens[i]? = some x.idx → f[i]? = some (φ x).idx) →
      ∃ func, generatedHomomorphism D.g R.g s f = some (.hom func) ∧ Tabulates func φ) ∧
    ((¬ ∃ φ : D.Elem →* R.Elem, ∀ (i : Nat) (x : D.Elem), s.gens[i]? = some x.idx → f[i]? = some (φ x).idx) →
      generatedHomomorphism D.g R.g s f = some .none) := by
  have hrall : (f.all fun x => decide (x < R.g.n)) = true := by simpa using hr
  have hfd : ∀ i, i < s.gens.length → f.getD i 0 < R.g.n := by
    intro i hi
    rw [List.getD_eq_getElem _ _ (by omega)]; exact hr _ (List.getElem_mem _)
  unfold generatedHomomorphism
  rw [if_neg (by simpa using hf), hrall, homTable_eq s h f hf]
  set func := (List.range D.g.n).map fun x => R.g.mulMany ((s.words.getD x []).map fun i => f.getD i 0) with hfunc
  have hwlt : ∀ x, x < D.g.n → R.g.mulMany ((s.words.getD x []).map fun i => f.getD i 0) < R.g.n := by
    intro x hx
    apply mulMany_lt
    intro y hy
    obtain ⟨i, hi, rfl⟩ := List.mem_map.1 hy
    exact hfd i ((h.word x hx).1 i hi)
  obtain ⟨ψ, hψ⟩ := exists_fun (D := D) (R := R) func (by simp [hfunc]) (by
    intro x hx
    rw [hfunc, getD_map_range _ _ hx]; exact hwlt x hx)
  have hψv : ∀ x : D.Elem, (ψ x).idx = R.g.mulMany ((s.words.getD x.idx []).map fun i => f.getD i 0) := by
    intro x
    rw [← tabulates_getD hψ, hfunc, getD_map_range _ _ (idx_lt x)]
  have hψ1 : ψ 1 = 1 := by
    apply Elem.ext
    rw [hψv, idx_one, h.oneWord]; rfl
  have hψg : ∀ (i : Nat) (x : D.Elem), s.gens[i]? = some x.idx → f[i]? = some (ψ x).idx := by
    intro i x hx
    have hi : i < s.gens.length := by
      by_contra hge
      rw [List.getElem?_eq_none (by omega)] at hx; cases hx
    rw [getElem?_of_getD hi] at hx
    have hx := Option.some.inj hx
    rw [hψv, ← hx, h.genWord i hi, getElem?_of_getD (by omega)]
    rfl
  have hcheck : ((List.range D.g.n).all fun x => s.gens.all fun g => func.getD (D.g.m x g) 0 == R.g.m (func.getD x 0) (func.getD g 0)) = true ↔
      ∀ x g : D.Elem, g.idx ∈ s.gens → ψ (x * g) = ψ x * ψ g := by
    simp only [List.all_eq_true, List.mem_range, beq_iff_eq]
    constructor
    · intro hc x g hg
      apply Elem.ext
      rw [idx_mul, ← tabulates_getD hψ, ← tabulates_getD hψ, ← tabulates_getD hψ, idx_mul]
      exact hc _ (idx_lt x) _ hg
    · intro hc x hx g hg
      obtain ⟨i, hi, rfl⟩ := List.getElem_of_mem hg
      have hgl : s.gens[i] < D.g.n := by have := h.genLt i hi; rwa [List.getD_eq_getElem _ _ hi] at this
      have e1 := tabulates_getD hψ (D.el x hx)
      have e2 := tabulates_getD hψ (D.el _ hgl)
      have e3 := tabulates_getD hψ (D.el x hx * D.el _ hgl)
      rw [idx_el] at e1 e2
      rw [idx_mul, idx_el, idx_el, hc _ (D.el _ hgl) hg, idx_mul] at e3
      rw [e1, e2, e3]
  simp only [Bool.not_true, Bool.false_eq_true, if_false, Option.map_some, Option.some.injEq]
  constructor
  · intro φ hφ
    refine ⟨func, ?_, ?_⟩
    · rw [if_pos]
      rw [hcheck]
      have : ∀ x, ψ x = φ x := by
        intro x
        apply Elem.ext
        rw [hψv]
        obtain ⟨h1, h2⟩ := h.word x.idx (idx_lt x)
        exact (hom_word s h f hf φ (map_one φ) (fun x g _ => map_mul φ x g) hφ _ h1 x h2).1
      intro x g _
      rw [this, this, this, map_mul]
    · have : ψ = φ := by
        funext x
        apply Elem.ext
        rw [hψv]
        obtain ⟨h1, h2⟩ := h.word x.idx (idx_lt x)
        exact (hom_word s h f hf φ (map_one φ) (fun x g _ => map_mul φ x g) hφ _ h1 x h2).1
      rw [← this]; exact hψ
  · intro hno
    rw [if_neg]
    rw [hcheck]
    intro hc
    exact hno ⟨MonoidHom.mk' ψ (mul_of_gens s h ψ hc hψ1), hψg⟩

end Verif.Table
