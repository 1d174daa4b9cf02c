import Verif.Proofs.GolayIso

/-!
# C177, C178: labellings of sextets and the miracle octad generator
-/

namespace Verif.Golay
open Finset Verif.Rings

theorem completeLabelling_none {g : Code} {t : Fin 6 → Vector24} {x y z w : Nat} {alpha : Quat}
    (h : ¬ ((t 0).contains x = some true ∧ (t 1).contains y = some true ∧ (t 1).contains z = some true ∧ (t 2).contains w = some true ∧ y ≠ z)) :
    g.completeLabelling (List.ofFn t) x y z w alpha = none := by
  have fs0 : foursome (List.ofFn t) 0 = some (t 0) := foursome_ofFn t 0
  have fs1 : foursome (List.ofFn t) 1 = some (t 1) := foursome_ofFn t 1
  have fs2 : foursome (List.ofFn t) 2 = some (t 2) := foursome_ofFn t 2
  have key : ∀ {α : Type} (v : Vector24) (p : Nat) (f : Unit → Option α), v.contains p ≠ some true →
      (v.contains p >>= fun b => assertThat b >>= f) = none := by
    intro α v p f hne
    cases e : v.contains p with
    | none => rfl
    | some b =>
      cases b
      · rfl
      · exact absurd e hne
  have fail : ∀ {α : Type} (b : Bool) (f : Unit → Option α), b = false → (assertThat b >>= f) = none := by
    intro α b f e
    rw [e]
    rfl
  unfold Code.completeLabelling
  refine bind_step fs0 (bind_step fs1 (bind_step fs2 ?_))
  by_cases h1 : (t 0).contains x = some true
  · refine bind_step h1 (assert_step rfl ?_)
    by_cases h2 : (t 1).contains y = some true
    · refine bind_step h2 (assert_step rfl ?_)
      by_cases h3 : (t 1).contains z = some true
      · refine bind_step h3 (assert_step rfl ?_)
        by_cases h4 : (t 2).contains w = some true
        · refine bind_step h4 (assert_step rfl ?_)
          have : y = z := by by_contra hne; exact h ⟨h1, h2, h3, h4, hne⟩
          exact fail _ _ (by simp [this])
        · exact key _ _ _ h4
      · exact key _ _ _ h3
    · exact key _ _ _ h2
  · exact key _ _ _ h1

theorem contains_true {v : Vector24} {p : Nat} : v.contains p = some true ↔ ∃ h : p < 24, (⟨p, h⟩ : Fin 24) ∈ v.set := by
  by_cases h : p < 24
  · have := contains_eq v ⟨p, h⟩
    simp only at this
    rw [this]
    simp [h]
  · simp [Vector24.contains, assertThat, h]

/-- C177: for every constructed code and every ordered sextet of it, `complete_labelling` panics unless `x` is a point of the first foursome,
`y` and `z` are two different points of the second and `w` is a point of the third one. -/
theorem C177_preconditions (g : Code) (t : Fin 6 → Vector24) (x y z w : Nat) (alpha : Quat) (r : List Quat)
    (h : g.completeLabelling (List.ofFn t) x y z w alpha = some r) :
    (∃ h : x < 24, (⟨x, h⟩ : Fin 24) ∈ (t 0).set) ∧ (∃ h : y < 24, (⟨y, h⟩ : Fin 24) ∈ (t 1).set) ∧ (∃ h : z < 24, (⟨z, h⟩ : Fin 24) ∈ (t 1).set) ∧
    (∃ h : w < 24, (⟨w, h⟩ : Fin 24) ∈ (t 2).set) ∧ y ≠ z := by
  by_contra hcon
  rw [completeLabelling_none (by simpa only [contains_true] using hcon)] at h
  cases h

/-- C177: with these preconditions it never panics (all assertions hold, for each of the four values of `alpha`); in the result each foursome
has each of the four labels once, `x` and `y` have label 0, `z` has label 1 and `w` has label `alpha`. -/
theorem C177_complete_labelling (g : Code) (C : Submodule (ZMod 2) (Fin 24 → ZMod 2)) (h : g.Of C) (t : Fin 6 → Vector24)
    (hs : IsSextet C fun i => (t i).set) (x y z w : Fin 24) (hx : x ∈ (t 0).set) (hy : y ∈ (t 1).set) (hz : z ∈ (t 1).set) (hw : w ∈ (t 2).set) (hyz : y ≠ z)
    (alpha : Quat) :
    ∃ lab : Fin 24 → Quat, g.completeLabelling (List.ofFn t) x y z w alpha = some (List.ofFn lab) ∧
      lab x = .zero ∧ lab y = .zero ∧ lab z = .one ∧ lab w = alpha ∧ ∀ j l, ∃! p, p ∈ (t j).set ∧ lab p = l := by
  obtain ⟨hC, hg⟩ := h.spec
  have h6 := six_of hs
  obtain ⟨lab, O, o, S, s, P, p, h1, h2, h3, h4, h5⟩ := completeLabelling_spec hC hg h6 hx hy hz hw hyz alpha
  refine ⟨lab, h1, lab_x hC h6 h2 h4 h5, lab_y hC h6 h2 h4 h5, lab_z hC h6 h2 h4 h5, ?_, ?_⟩
  · rw [← h3]; exact lab_o h2 h5 2 (by decide)
  · intro j l
    obtain ⟨r, r1, r2⟩ := labels_surj hC h6 h2 h4 h5 j l
    exact ⟨r, ⟨r1, r2⟩, fun q hq => labels_inj hC h6 h2 h4 h5 j hq.1 r1 (hq.2.trans r2.symm)⟩

/-- C178: `mog_isomorphism` of a labelling that `complete_labelling` returned never panics; its two results are mutually inverse permutations,
the first sends the point with label number `r` of foursome `c` to `c + 6 * r`, and it maps the code onto the code of `ebgc_mog`. -/
theorem C178_mog_isomorphism (g : Code) (C : Submodule (ZMod 2) (Fin 24 → ZMod 2)) (h : g.Of C) (t : Fin 6 → Vector24)
    (hs : IsSextet C fun i => (t i).set) (x y z w : Fin 24) (alpha : Quat) (labels : List Quat)
    (hl : g.completeLabelling (List.ofFn t) x y z w alpha = some labels) :
    ∃ σ : Equiv.Perm (Fin 24), mogIsomorphism (List.ofFn t) labels = some (List.ofFn fun i => (σ i : Nat), List.ofFn fun i => (σ.symm i : Nat)) ∧
      (∀ (c : Fin 6) (p : Fin 24) (l : Quat), p ∈ (t c).set → labels[(p : Nat)]? = some l → (σ p : Nat) = c + 6 * rowOfLabel l) ∧
      ∀ v : Fin 24 → ZMod 2, v ∈ C ↔ v ∘ σ.symm ∈ rowCode (digits mogRows) := by
  obtain ⟨⟨_, hx⟩, ⟨_, hy⟩, ⟨_, hz⟩, ⟨_, hw⟩, hyz⟩ := C177_preconditions g t x y z w alpha labels hl
  obtain ⟨hC, hg⟩ := h.spec
  have h6 := six_of hs
  obtain ⟨lab, O, o, S, s, P, p, h1, h2, h3, h4, h5⟩ := completeLabelling_spec hC hg h6 hx hy hz hw (fun e => hyz (congrArg Fin.val e)) alpha
  rw [h1] at hl
  cases hl
  obtain ⟨col, σ, hc⟩ := chart_exists h6 (labels_inj hC h6 h2 h4 h5)
  refine ⟨σ, mogIsomorphism_spec h6 hc, ?_, ?_⟩
  · intro c q l hq hlab
    rw [get_ofFn] at hlab
    cases hlab
    rw [hc.val, h6.eq_col (hc.mem q) hq]
  · exact mog_code hC h6 h2 h4 h5 hc C175_built_in.2.2.2.2.2

/-- C178: all extended binary Golay codes are equal up to a permutation of the coordinates: the pipeline of `complete_sextet`,
`complete_labelling` and `mog_isomorphism` finds a permutation for every constructed code, every four points and every iteration order. -/
theorem C178_pipeline (g : Code) (C : Submodule (ZMod 2) (Fin 24 → ZMod 2)) (h : g.Of C) (four : Vector24) (hv : four.Valid) (h4 : four.set.card = 4)
    (order : Nat → List Nat → List Nat) (ho : ∀ i l, (order i l).Perm l) (alpha : Quat) :
    ∃ (parts : List Vector24) (x y z w : Fin 24) (labels : List Quat) (σ : Equiv.Perm (Fin 24)), g.completeSextet order four = some parts ∧
      g.completeLabelling parts x y z w alpha = some labels ∧
      mogIsomorphism parts labels = some (List.ofFn fun i => (σ i : Nat), List.ofFn fun i => (σ.symm i : Nat)) ∧
      ∀ v : Fin 24 → ZMod 2, v ∈ C ↔ v ∘ σ.symm ∈ rowCode (digits mogRows) := by
  obtain ⟨t, e1, -, -, e2, -⟩ := (C173_complete_sextet g C h four hv order ho).1 h4
  obtain ⟨x, hx⟩ : (t 0).set.Nonempty := card_pos.1 (by rw [e2.four 0]; omega)
  obtain ⟨y, hy, z, hz, hyz⟩ := one_lt_card.1 (show 1 < (t 1).set.card by rw [e2.four 1]; omega)
  obtain ⟨w, hw⟩ : (t 2).set.Nonempty := card_pos.1 (by rw [e2.four 2]; omega)
  obtain ⟨lab, l1, -⟩ := C177_complete_labelling g C h t e2 x y z w hx hy hz hw hyz alpha
  obtain ⟨σ, s1, -, s2⟩ := C178_mog_isomorphism g C h t e2 x y z w alpha _ l1
  exact ⟨_, x, y, z, w, _, σ, e1, l1, s1, s2⟩

/-- C177 and C178, concretely: the hypotheses hold for the code of the quadratic residues modulo 11. -/
example : ∃ g C, ebgcQr11 = some g ∧ g.Of C ∧ ∃ parts labels r, g.completeSextet (fun _ l => l) ⟨15⟩ = some parts ∧
    (∃ x y z w : Fin 24, g.completeLabelling parts x y z w .beta = some labels) ∧ mogIsomorphism parts labels = some r := by
  obtain ⟨-, ⟨g, h1, h2⟩, -⟩ := C175_built_in
  obtain ⟨parts, x, y, z, w, labels, σ, e1, e2, e3, -⟩ := C178_pipeline g _ h2 ⟨15⟩ (show 15 < 2 ^ 24 by decide) (by decide +kernel) (fun _ l => l)
    (fun _ l => List.Perm.refl l) .beta
  exact ⟨g, _, h1, h2, parts, labels, _, e1, ⟨x, y, z, w, e2⟩, e3⟩

end Verif.Golay
