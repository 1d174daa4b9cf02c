import Verif.Proofs.GolayMog
import Mathlib.LinearAlgebra.FiniteDimensional.Lemmas

/-!
# `mog_isomorphism`
-/

namespace Verif.Golay
open Finset Verif.Rings

theorem row_lt (l : Quat) : rowOfLabel l < 4 := by cases l <;> decide

theorem row_inj {l m : Quat} (h : rowOfLabel l = rowOfLabel m) : l = m := by revert l m; decide

theorem row_eq_zero {l : Quat} : rowOfLabel l = 0 ↔ l = .zero := by revert l; decide

theorem two_le : ∀ j : Fin 6, j ≠ 0 → j ≠ 1 → 2 ≤ j := by decide
theorem lt_four : ∀ j : Fin 6, j ≠ 5 → j ≠ 4 → j < 4 := by decide
theorem one_five : ∀ j : Fin 6, j ≠ 0 → j = 1 ∨ j = 2 ∨ j = 3 ∨ j = 4 ∨ j = 5 := by decide

/-- the map of a labelling to the 4 × 6 array -/
structure Chart (T : Fin 6 → Finset Pt) (lab : Pt → Quat) (col : Pt → Fin 6) (σ : Equiv.Perm Pt) : Prop where
  mem : ∀ r, r ∈ T (col r)
  val : ∀ r, (σ r : Nat) = col r + 6 * rowOfLabel (lab r)

theorem chart_exists {F : Finset (Finset Pt)} {T : Fin 6 → Finset Pt} (hs : Six F T) {lab : Pt → Quat} (hinj : ∀ j, Set.InjOn lab (T j)) :
    ∃ col σ, Chart T lab col σ := by
  choose col hcol using hs.cover
  have hlt : ∀ r, (col r : Nat) + 6 * rowOfLabel (lab r) < 24 := fun r => by have := (col r).2; have := row_lt (lab r); omega
  have hi : Function.Injective fun r => (⟨(col r : Nat) + 6 * rowOfLabel (lab r), hlt r⟩ : Pt) := by
    intro r r' e
    have e := congrArg Fin.val e
    simp only at e
    have h1 := (col r).2
    have h2 := (col r').2
    have ec : col r = col r' := Fin.ext (by omega)
    have el : lab r = lab r' := row_inj (by rw [ec] at e; omega)
    exact hinj (col r) (hcol r) (ec ▸ hcol r') el
  exact ⟨col, Equiv.ofBijective _ (Finite.injective_iff_bijective.1 hi), hcol, fun r => rfl⟩

section
variable {F : Finset (Finset Pt)} {T : Fin 6 → Finset Pt} (hs : Six F T) {lab : Pt → Quat} (hinj : ∀ j, Set.InjOn lab (T j)) {col : Pt → Fin 6}
  {σ : Equiv.Perm Pt} (hc : Chart T lab col σ)

/-- the points that are mapped into the set of a vector -/
def pre (σ : Equiv.Perm Pt) (v : Vector24) : Finset Pt := univ.filter fun r => σ r ∈ v.set

theorem mem_pre {σ : Equiv.Perm Pt} {v : Vector24} {r : Pt} : r ∈ pre σ v ↔ σ r ∈ v.set := by simp [pre]

theorem pre_add (v w : Vector24) : pre σ (v.add w) = symmDiff (pre σ v) (pre σ w) := by
  ext r
  simp only [mem_pre, set_add, mem_symmDiff]

theorem card_pre (v : Vector24) : (pre σ v).card = v.set.card := by
  have : (pre σ v).map σ.toEmbedding = v.set := by
    ext r
    simp only [mem_map, mem_pre, Equiv.coe_toEmbedding]
    constructor
    · rintro ⟨q, h, rfl⟩; exact h
    · intro h; exact ⟨σ.symm r, by simpa using h, by simp⟩
  rw [← this, card_map]

theorem pre_zero : pre σ Vector24.zero = ∅ := by
  ext r
  simp [mem_pre, set_zero]

theorem pre_sum (h : Fam F) {L : List Vector24} (hL : ∀ v ∈ L, pre σ v ∈ F) (k : Nat) : pre σ (sumOf L k) ∈ F := by
  unfold sumOf
  have key : ∀ (M : List (Vector24 × Nat)) (v : Vector24), (∀ e ∈ M, pre σ e.1 ∈ F) → pre σ v ∈ F →
      pre σ (M.foldl (fun v e => if k.testBit e.2 then v.add e.1 else v) v) ∈ F := by
    intro M
    induction M with
    | nil => intro v _ hv; exact hv
    | cons e M ih =>
      intro v hM hv
      rw [List.foldl_cons]
      apply ih _ (fun e he => hM e (by simp [he]))
      split
      · rw [pre_add]; exact h.add _ hv _ (hM e (by simp))
      · exact hv
  refine key _ _ ?_ (by rw [pre_zero]; exact h.zero)
  intro e he
  exact hL _ (List.fst_mem_of_mem_zipIdx he)

include hc

theorem mem_pre_mask {M : Nat → Nat → Bool} {r : Pt} : r ∈ pre σ (maskOf M) ↔ M (col r) (rowOfLabel (lab r)) = true := by
  rw [mem_pre, mem_maskOf, hc.val]
  have := (col r).2
  rw [show ((col r : Nat) + 6 * rowOfLabel (lab r)) % 6 = col r by omega, show ((col r : Nat) + 6 * rowOfLabel (lab r)) / 6 = rowOfLabel (lab r) by omega]

include hs

theorem pre_pair (j : Fin 6) : pre σ (pairMask j) = T 0 ∪ T j := by
  ext r
  rw [pairMask, mem_pre_mask hc, mem_union, decide_eq_true_eq]
  have e : ∀ i : Fin 6, r ∈ T i ↔ (col r : Nat) = i := fun i =>
    ⟨fun h => congrArg Fin.val (hs.eq_col (hc.mem r) h), fun h => (Fin.ext h : col r = i) ▸ hc.mem r⟩
  rw [e 0, e j]
  rfl

include hinj

theorem pre_tri {u : Finset Pt} {a : Fin 6} {e : Pt} {f : Fin 6 → Pt} (ht : Tri F T u a e f) (he : lab e = .zero) {m : Nat → Nat}
    (hm : ∀ j, j ≠ a → m j = rowOfLabel (lab (f j))) : pre σ (triMask a 0 m) = u := by
  ext r
  rw [triMask, mem_pre_mask hc]
  by_cases ha : col r = a
  · rw [if_pos (congrArg Fin.val ha), decide_eq_true_eq, ne_eq, row_eq_zero]
    have hr : r ∈ T a := ha ▸ hc.mem r
    rw [ht.three r hr, ← he]
    exact not_congr ⟨fun h => hinj a hr ht.he h, fun h => by rw [h]⟩
  · rw [if_neg (fun h => ha (Fin.ext h)), decide_eq_true_eq, hm _ ha, ht.one (col r) ha r (hc.mem r)]
    exact ⟨fun h => hinj (col r) (hc.mem r) (ht.hf _ ha) (row_inj h), fun h => by rw [← h]⟩

end

section
variable {C : Submodule (ZMod 2) (Fin 24 → ZMod 2)} (hC : IsGolay C) {T : Fin 6 → Finset Pt} (hs : Six (famOf C) T) {x y z : Pt} {alpha : Quat}
  {O : Finset Pt} {o : Fin 6 → Pt} {S : Quat → Finset Pt} {s : Quat → Fin 6 → Pt} (hp : Phase (famOf C) T x y z alpha O o S s)
  {P : Quat → Finset Pt} {p : Quat → Fin 6 → Pt} (h3 : Phase3 (famOf C) T s P p) {lab : Pt → Quat} (hl : Labels T s p lab)
include hC hs hp h3 hl

theorem labels_pt (j : Fin 6) : ∃ f : Quat → Pt, (∀ l, f l ∈ T j) ∧ ∀ l, lab (f l) = l := by
  by_cases hj : j < 4
  · have hj5 : j ≠ 5 := by rintro rfl; exact absurd hj (by decide)
    exact ⟨fun l => p l j, fun l => (h3.triP l).hf j hj5, fun l => hl.lo l j hj⟩
  · have hj2 : 2 ≤ j := le_trans (by decide) (not_lt.1 hj)
    exact ⟨fun l => s l j, fun l => (hp.triS l).hf j (two_ne hj2).1, fun l => hl.hi l j hj2⟩

theorem labels_inj (j : Fin 6) : Set.InjOn lab (T j) := by
  obtain ⟨f, h1, h2⟩ := labels_pt hC hs hp h3 hl j
  have hf : Function.Injective f := fun a b e => by rw [← h2 a, e, h2 b]
  intro a ha b hb e
  obtain ⟨l, rfl⟩ := hs.hit hf h1 ha
  obtain ⟨m, rfl⟩ := hs.hit hf h1 hb
  rw [h2, h2] at e
  rw [e]

theorem labels_surj (j : Fin 6) (l : Quat) : ∃ r ∈ T j, lab r = l := by
  obtain ⟨f, h1, h2⟩ := labels_pt hC hs hp h3 hl j
  exact ⟨f l, h1 l, h2 l⟩

theorem lab_x : lab x = .zero := by rw [← h3.at_x hs (fam_of hC) hp]; exact hl.lo _ 0 (by decide)
theorem lab_y : lab y = .zero := by rw [← h3.at_y hs (fam_of hC) hp]; exact hl.lo _ 1 (by decide)
theorem lab_z : lab z = .one := by rw [← h3.at_z hs (fam_of hC) hp]; exact hl.lo _ 1 (by decide)
omit h3 hC hs in
theorem lab_o (i : Fin 6) (hi : 2 ≤ i) : lab (o i) = hexa alpha i := by rw [← hp.so i hi]; exact hl.hi _ i hi

theorem mog_rows {col : Pt → Fin 6} {σ : Equiv.Perm Pt} (hc : Chart T lab col σ) (i : Fin 12) : pre σ (mogMask i) ∈ famOf C := by
  have hFam := fam_of hC
  have hinj := labels_inj hC hs hp h3 hl
  have lx := lab_x hC hs hp h3 hl
  have gO : pre σ (triMask 0 0 (hexaRow alpha)) = O := by
    refine pre_tri hs hinj hc hp.triO lx ?_
    intro j hj
    unfold hexaRow
    rw [dif_pos j.2]
    congr 1
    by_cases h1 : j = 1
    · subst h1; rw [hp.o1, lab_z hC hs hp h3 hl]; rfl
    · rw [lab_o hp hl j (two_le j hj h1)]
  have gS : ∀ l, pre σ (sMask l) = S l := by
    intro l
    refine pre_tri hs hinj hc (hp.triS l) lx ?_
    intro j hj
    by_cases h1 : j = 1
    · subst h1; rw [hp.s1, lab_y hC hs hp h3 hl]; rfl
    · rw [if_neg (fun h : (j : Nat) = 1 => h1 (Fin.ext h)), hl.hi l j (two_le j hj h1)]
  have gP : ∀ l, pre σ (pMask l) = P l := by
    intro l
    refine pre_tri hs hinj hc (a := 5) (h3.triP l) (hl.hi .zero 5 (by decide)) ?_
    intro j hj
    by_cases h1 : j = 4
    · subst h1; rw [h3.p4, hl.hi .zero 4 (by decide)]; rfl
    · rw [if_neg (fun h : (j : Nat) = 4 => h1 (Fin.ext h)), hl.lo l j (lt_four j hj h1)]
  have gpair : ∀ j : Fin 6, j ≠ 0 → pre σ (pairMask j) ∈ famOf C := by
    intro j hj
    rw [pre_pair hs hc]
    exact hs.code 0 j hj.symm
  have ggens : ∀ v ∈ gens alpha, pre σ v ∈ famOf C := by
    intro v hv
    simp only [gens, List.mem_cons, List.not_mem_nil, or_false] at hv
    rcases hv with rfl | rfl | rfl | rfl | rfl | rfl | rfl | rfl | rfl | rfl | rfl
    · exact gpair 1 (by decide)
    · exact gpair 2 (by decide)
    · exact gpair 3 (by decide)
    · exact gpair 4 (by decide)
    · exact gpair 5 (by decide)
    · rw [gO]; exact hp.triO.mem
    · rw [gS]; exact (hp.triS _).mem
    · rw [gS]; exact (hp.triS _).mem
    · rw [gS]; exact (hp.triS _).mem
    · rw [gP]; exact (h3.triP _).mem
    · rw [gP]; exact (h3.triP _).mem
  -- the twelfth word
  obtain ⟨q1, m1, l1⟩ := labels_surj hC hs hp h3 hl 1 .alpha
  obtain ⟨q2, m2, l2⟩ := labels_surj hC hs hp h3 hl 2 .zero
  have h5 : (insert q1 (insert q2 ((T 0).erase x))).card = 5 := by
    rw [card_insert_of_notMem, card_insert_of_notMem, card_erase_of_mem hp.hx, hs.four]
    · intro hh; exact absurd (hs.eq_col (mem_of_mem_erase hh) m2) (by decide)
    · intro hh
      rcases mem_insert.1 hh with rfl | hh
      · exact absurd (hs.eq_col m1 m2) (by decide)
      · exact absurd (hs.eq_col (mem_of_mem_erase hh) m1) (by decide)
  obtain ⟨K, k1, k2, k3⟩ := hFam.octad_exists _ h5
  obtain ⟨f, f1, f2, f3⟩ := hs.tri hFam k1 k2 (by decide) (by decide) (by decide) hp.hx m1 m2 k3
  have gK : pre σ (kMask (lab (f 3)) (lab (f 4)) (lab (f 5))) = K := by
    refine pre_tri hs hinj hc f1 lx ?_
    intro j hj
    have : j = 1 ∨ j = 2 ∨ j = 3 ∨ j = 4 ∨ j = 5 := one_five j hj
    rcases this with rfl | rfl | rfl | rfl | rfl
    · rw [f2, l1]; rfl
    · rw [f3, l2]; rfl
    · rfl
    · rfl
    · rfl
  have good : lab (f 3) = .alpha ∧ lab (f 4) = .beta ∧ lab (f 5) = .one := by
    refine (light_check alpha (lab (f 3)) (lab (f 4)) (lab (f 5))).resolve_right ?_
    rintro ⟨w1, w2⟩
    rw [weight_eq, ← card_pre (σ := σ)] at w1 w2
    have hm : pre σ ((sumOf (gens alpha) (light alpha (lab (f 3)) (lab (f 4)) (lab (f 5)))).add (kMask (lab (f 3)) (lab (f 4)) (lab (f 5)))) ∈ famOf C := by
      rw [pre_add, gK]
      exact hFam.add _ (pre_sum hFam ggens _) _ k1
    have := hFam.min _ hm (card_pos.1 w1).ne_empty
    omega
  rw [good.1, good.2.1, good.2.2] at gK
  rw [← row_check alpha i]
  apply pre_sum hFam
  intro v hv
  rcases List.mem_append.1 hv with hv | hv
  · exact ggens v hv
  · rw [List.mem_singleton.1 hv, gK]; exact k1

/-- the code in the new coordinates -/
theorem mog_code {col : Pt → Fin 6} {σ : Equiv.Perm Pt} (hc : Chart T lab col σ) (hM : IsGolay (rowCode (digits mogRows))) (c : Pt → ZMod 2) :
    c ∈ C ↔ c ∘ σ.symm ∈ rowCode (digits mogRows) := by
  let e : (Pt → ZMod 2) ≃ₗ[ZMod 2] (Pt → ZMod 2) := LinearEquiv.funCongrLeft (ZMod 2) (ZMod 2) σ
  have he : ∀ d : Pt → ZMod 2, e d = d ∘ σ := fun d => rfl
  have hle : (rowCode (digits mogRows)).map e.toLinearMap ≤ C := by
    rw [rowCode, Submodule.map_span, Submodule.span_le]
    rintro _ ⟨_, ⟨i, rfl⟩, rfl⟩
    have h1 := mem_famOf.1 (mog_rows hC hs hp h3 hl hc i)
    have h2 : indicator (pre σ (mogMask i)) = e (digits mogRows i) := by
      rw [he, ← indicator_mogMask]
      funext r
      simp only [indicator, mem_pre, Function.comp]
    rw [h2] at h1
    exact h1
  have heq : (rowCode (digits mogRows)).map e.toLinearMap = C := by
    apply Submodule.eq_of_le_of_finrank_eq hle
    rw [LinearEquiv.finrank_map_eq, hM.dim, hC.dim]
  rw [← heq, Submodule.mem_map]
  constructor
  · rintro ⟨d, hd, rfl⟩
    have : (e.toLinearMap d) ∘ σ.symm = d := by
      funext r
      exact congrArg d (σ.apply_symm_apply r)
    rw [this]
    exact hd
  · intro h
    refine ⟨_, h, ?_⟩
    funext r
    exact congrArg c (σ.symm_apply_apply r)

end

/-! ## Running `mog_isomorphism` -/

theorem set_ofFn {α : Type} (A : Pt → α) (p : Pt) (q : α) : (List.ofFn A).set p q = List.ofFn (Function.update A p q) := by
  apply List.ext_getElem
  · simp
  · intro i h1 h2
    rw [List.getElem_ofFn, List.getElem_set]
    split
    · rename_i h
      subst h
      simp
    · rename_i h
      rw [List.getElem_ofFn, Function.update_of_ne]
      intro e
      exact h (congrArg Fin.val e).symm

theorem mogPoint_loop {T : Fin 6 → Finset Pt} {lab : Pt → Quat} {col : Pt → Fin 6} {σ : Equiv.Perm Pt} (hc : Chart T lab col σ) (c : Fin 6) (L : List Pt)
    (hL : ∀ r ∈ L, col r = c) (A B : Pt → Nat) :
    (L.map Fin.val).foldlM (mogPoint (List.ofFn lab) c) (List.ofFn A, List.ofFn B) =
      some (List.ofFn fun r => if r ∈ L then (σ r : Nat) else A r, List.ofFn fun q => if σ.symm q ∈ L then (σ.symm q : Nat) else B q) := by
  induction L generalizing A B with
  | nil => simp
  | cons r L ih =>
    have hr : mogPoint (List.ofFn lab) c (List.ofFn A, List.ofFn B) r =
        some (List.ofFn (Function.update A r (σ r : Nat)), List.ofFn (Function.update B (σ r) (r : Nat))) := by
      unfold mogPoint
      rw [get_ofFn]
      have hv : (c : Nat) + 6 * rowOfLabel (lab r) = (σ r : Nat) := by rw [hc.val, hL r (by simp)]
      simp only [Option.bind_eq_bind, Option.bind_some, List.length_ofFn, hv, r.2, (σ r).2, decide_true, assertThat, if_true, set_ofFn]
    rw [List.map_cons, List.foldlM_cons, hr]
    simp only [Option.bind_eq_bind, Option.bind_some]
    rw [ih (fun r hr => hL r (by simp [hr]))]
    congr 3
    · funext q
      by_cases h : q = r
      · subst h; simp
      · rw [Function.update_of_ne h]; simp [h]
    · funext q
      by_cases h : q = σ r
      · subst h; simp
      · rw [Function.update_of_ne h]
        have : σ.symm q ≠ r := fun e => h (by rw [← e, σ.apply_symm_apply])
        simp [this]

theorem new_perm (σ : Equiv.Perm Pt) : Verif.Perm.Fixed.new (List.ofFn fun i => (σ i : Nat)) = some (List.ofFn fun i => (σ i : Nat)) := by
  obtain ⟨h1, h2⟩ := Verif.Props.Perm.C06_fixed_new (List.ofFn fun i => (σ i : Nat))
  have : (Verif.Perm.Fixed.new (List.ofFn fun i => (σ i : Nat))).isSome := by
    rw [h1, List.length_ofFn, List.perm_ext_iff_of_nodup (List.nodup_ofFn.2 fun i j e => σ.injective (Fin.ext e)) List.nodup_range]
    intro a
    rw [List.mem_ofFn', List.mem_range]
    constructor
    · rintro ⟨i, rfl⟩; exact (σ i).2
    · intro ha
      exact ⟨σ.symm ⟨a, ha⟩, by simp⟩
  obtain ⟨q, hq⟩ := Option.isSome_iff_exists.1 this
  rw [hq, h2 q hq]

theorem mogIsomorphism_spec {F : Finset (Finset Pt)} {t : Fin 6 → Vector24} (hs : Six F fun i => (t i).set) {lab : Pt → Quat} {col : Pt → Fin 6} {σ : Equiv.Perm Pt}
    (hc : Chart (fun i => (t i).set) lab col σ) :
    mogIsomorphism (List.ofFn t) (List.ofFn lab) = some (List.ofFn fun i => (σ i : Nat), List.ofFn fun i => (σ.symm i : Nat)) := by
  have step : ∀ (c : Fin 6) (A B : Pt → Nat), (do
      let t ← foursome (List.ofFn t) c
      t.pts.foldlM (mogPoint (List.ofFn lab) c) (List.ofFn A, List.ofFn B)) =
      some (List.ofFn fun r => if col r = c then (σ r : Nat) else A r, List.ofFn fun q => if col (σ.symm q) = c then (σ.symm q : Nat) else B q) := by
    intro c A B
    have hm : ∀ r, r ∈ (t c).fpts ↔ col r = c := by
      intro r
      rw [mem_fpts]
      exact ⟨fun h => hs.eq_col (hc.mem r) h, fun h => h ▸ hc.mem r⟩
    refine bind_step (foursome_ofFn t c) ?_
    rw [← fpts_val, mogPoint_loop hc c _ (fun r hr => (hm r).1 hr)]
    simp only [hm]
  have range6 : List.range 6 = [((0 : Fin 6) : Nat), ((1 : Fin 6) : Nat), ((2 : Fin 6) : Nat), ((3 : Fin 6) : Nat), ((4 : Fin 6) : Nat), ((5 : Fin 6) : Nat)] := rfl
  have hrep : List.replicate 24 0 = List.ofFn (fun _ : Pt => 0) := by rw [List.ofFn_const]
  have all : ∀ {α : Type} (c : Fin 6) (a b : α), (if c = 5 then a else if c = 4 then a else if c = 3 then a else if c = 2 then a else if c = 1 then a else
      if c = 0 then a else b) = a := by
    intro α c a b
    fin_cases c <;> rfl
  unfold mogIsomorphism
  rw [range6, hrep]
  refine bind_step (v := (List.ofFn fun i => (σ i : Nat), List.ofFn fun i => (σ.symm i : Nat))) ?_ (bind_step (new_perm σ) (bind_step (new_perm σ.symm) rfl))
  refine bind_step (step 0 _ _) (bind_step (step 1 _ _) (bind_step (step 2 _ _) (bind_step (step 3 _ _) (bind_step (step 4 _ _) (bind_step (step 5 _ _) ?_)))))
  simp only [all]
  rfl

end Verif.Golay
