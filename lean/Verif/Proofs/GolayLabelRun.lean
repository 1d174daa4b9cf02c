import Verif.Proofs.GolayLabel

/-!
# Running `complete_labelling`
-/

namespace Verif.Golay
open Finset Verif.Rings

/-! ## Arrays of labels -/

theorem get_ofFn (F : Pt → Quat) (p : Pt) : (List.ofFn F)[(p : Nat)]? = some (F p) := by
  rw [List.getElem?_ofFn]
  simp

theorem setLabel_ofFn (F : Pt → Quat) (p : Pt) (l : Quat) : setLabel (List.ofFn F) p l = some (List.ofFn (Function.update F p l)) := by
  unfold setLabel
  simp only [List.length_ofFn, p.2, decide_true, assertThat, if_true, Option.bind_eq_bind, Option.bind_some, Option.some.injEq]
  apply List.ext_getElem
  · simp
  · intro i h1 h2
    rw [List.getElem_ofFn, List.getElem_set]
    split
    · rename_i h
      subst h
      simp
    · rename_i h
      rw [List.getElem_ofFn, Function.update_of_ne]
      intro e
      exact h (congrArg Fin.val e).symm

theorem checkLabel_ofFn {F : Pt → Quat} {p : Pt} {l : Quat} (h : F p = l) : checkLabel (List.ofFn F) p l = some () := by
  unfold checkLabel
  rw [get_ofFn]
  simp [assertThat, h]

theorem fold_labels (P : Nat → Bool) (l : Quat) (L : List Pt) (F : Pt → Quat) :
    (L.map Fin.val).foldlM (fun ls p => if P p then setLabel ls p l else some ls) (List.ofFn F) =
      some (List.ofFn fun r => if r ∈ L ∧ P r then l else F r) := by
  induction L generalizing F with
  | nil => simp
  | cons a L ih =>
    rw [List.map_cons, List.foldlM_cons]
    by_cases h : P a = true
    · rw [if_pos h, setLabel_ofFn]
      simp only [Option.bind_eq_bind, Option.bind_some]
      rw [ih]
      congr 2
      funext r
      by_cases hr : r = a
      · subst hr; simp [h]
      · rw [Function.update_of_ne hr]; simp [hr]
    · rw [if_neg h]
      simp only [Option.bind_eq_bind, Option.bind_some]
      rw [ih]
      congr 2
      funext r
      by_cases hr : r = a
      · subst hr; simp [h]
      · simp [hr]

theorem fold_vec (v : Vector24) (l : Quat) (F : Pt → Quat) :
    v.pts.foldlM (fun ls p => setLabel ls p l) (List.ofFn F) = some (List.ofFn fun r => if r ∈ v.set then l else F r) := by
  have := fold_labels (fun _ => true) l v.fpts F
  rw [fpts_val] at this
  simpa [mem_fpts] using this

theorem filterM_some {L : List Nat} {f : Nat → Option Bool} {g : Nat → Bool} (h : ∀ p ∈ L, f p = some (g p)) :
    L.filterM f = some (L.filter g) := by
  suffices hk : ∀ (L : List Nat) (acc : List Nat), (∀ p ∈ L, f p = some (g p)) → L.filterAuxM f acc = some ((L.filter g).reverse ++ acc) by
    unfold List.filterM
    rw [hk L [] h]
    simp
  intro L
  induction L with
  | nil => intro acc _; simp [List.filterAuxM]
  | cons a L ih =>
    intro acc h
    unfold List.filterAuxM
    rw [h a (by simp)]
    simp only [Option.bind_eq_bind, Option.bind_some]
    rw [ih _ fun p hp => h p (by simp [hp])]
    cases hg : g a <;> simp [hg, List.filter_cons]

theorem length_filter (v : Vector24) (P : Nat → Bool) : (v.pts.filter P).length = (v.set.filter fun r : Pt => P r = true).card := by
  rw [← fpts_val, List.filter_map, List.length_map, ← List.toFinset_card_of_nodup ((nodup_fpts v).filter _), List.toFinset_filter, fpts_toFinset]
  rfl

theorem foursome_ofFn (t : Fin 6 → Vector24) (i : Fin 6) : foursome (List.ofFn t) i = some (t i) := by
  unfold foursome
  simp only [i.2, decide_true, assertThat, if_true, Option.bind_eq_bind, Option.bind_some]
  rw [List.getElem?_ofFn]
  simp

/-! ## Octads found by the code -/

section
variable {C : Submodule (ZMod 2) (Fin 24 → ZMod 2)} {g : Code} {T : Fin 6 → Finset Pt} (hC : IsGolay C) (hg : CodeOk g C)
  (hs : Six (famOf C) T)
include hC hg hs

theorem run_tri {L : List Nat} (hlt : ∀ r ∈ L, r < 24) {a b c : Fin 6} (hab : a ≠ b) (hac : a ≠ c)
    (hbc : b ≠ c) {e p q : Pt} (he : e ∈ T a) (hp : p ∈ T b) (hq : q ∈ T c)
    (hL : ∀ r : Pt, (r : Nat) ∈ L ↔ r = p ∨ r = q ∨ r ∈ T a ∧ r ≠ e) :
    ∃ five oct f, Vector24.fromPoints L = some five ∧ g.completeOctad five = some oct ∧ Tri (famOf C) T oct.set a e f ∧ f b = p ∧ f c = q := by
  obtain ⟨five, h1, h2, h3⟩ := fromPoints_spec hlt
  have hset : five.set = insert p (insert q ((T a).erase e)) := by
    ext r
    rw [h3, hL]
    simp only [mem_insert, mem_erase]
    tauto
  have h5 : five.set.card = 5 := by
    rw [hset, card_insert_of_notMem, card_insert_of_notMem, card_erase_of_mem he, hs.four]
    · intro hh; exact hac (hs.eq_col (mem_of_mem_erase hh) hq)
    · intro hh
      rcases mem_insert.1 hh with rfl | hh
      · exact hbc (hs.eq_col hp hq)
      · exact hab (hs.eq_col (mem_of_mem_erase hh) hp)
  obtain ⟨oct, o1, o2, o3, o4, o5⟩ := completeOctad_spec hg h2 h5
  rw [hset] at o5
  obtain ⟨f, f1, f2, f3⟩ := hs.tri (fam_of hC) o3 o4 hab hac hbc he hp hq o5
  exact ⟨five, oct, f, h1, o1, f1, f2, f3⟩

theorem run_tri0 {t0 : Vector24} (h0 : t0.set = T 0) {x p q : Pt} (hx : x ∈ T 0) (hp : p ∈ T 1) {c : Fin 6} (hc : 2 ≤ c) (hq : q ∈ T c) :
    ∃ five oct f, Vector24.fromPoints (t0.pts.filter (fun r => r != (x : Nat)) ++ [(p : Nat), (q : Nat)]) = some five ∧
      g.completeOctad five = some oct ∧ Tri (famOf C) T oct.set 0 x f ∧ f 1 = p ∧ f c = q := by
  refine run_tri hC hg hs ?_ (by decide) (two_ne hc).1.symm (two_ne hc).2.symm hx hp hq ?_
  · intro r hr
    simp only [List.mem_append, List.mem_filter, List.mem_cons, List.not_mem_nil, or_false] at hr
    rcases hr with hr | hr | hr
    · exact (mem_pts.1 hr.1).1
    · rw [hr]; exact p.2
    · rw [hr]; exact q.2
  · intro r
    simp only [List.mem_append, List.mem_filter, List.mem_cons, List.not_mem_nil, or_false, mem_pts', h0, bne_iff_ne, ne_eq, Fin.ext_iff]
    tauto

end

theorem takeUnique {u t : Vector24} {p : Pt} (hp : p ∈ t.set) (h : ∀ r ∈ t.set, r ∈ u.set ↔ r = p) : takeUniquePt (u.and t) = some p := by
  have hset : (u.and t).set = {p} := by
    rw [set_and]
    ext r
    rw [mem_inter, mem_singleton]
    constructor
    · rintro ⟨h1, h2⟩; exact (h r h2).1 h1
    · rintro rfl; exact ⟨(h r hp).2 rfl, hp⟩
  have hl := length_pts (u.and t)
  rw [hset, card_singleton] at hl
  obtain ⟨q, hq⟩ := List.length_eq_one_iff.1 hl
  have hqp : q = p := by
    have : q ∈ (u.and t).pts := by rw [hq]; simp
    obtain ⟨hlt, hm⟩ := mem_pts.1 this
    rw [hset, mem_singleton] at hm
    exact congrArg Fin.val hm
  unfold takeUniquePt
  rw [hq, hqp]
  simp [assertThat]

theorem hexacode_eq (alpha : Quat) : hexacode alpha = (hexa alpha 3, hexa alpha 4, hexa alpha 5) := by cases alpha <;> rfl

theorem two_five : ∀ j : Fin 6, 2 ≤ j → j = 2 ∨ j = 3 ∨ j = 4 ∨ j = 5 := by decide

theorem two_three : ∀ j : Fin 6, 2 ≤ j → j ≠ 4 → j ≠ 5 → j = 2 ∨ j = 3 := by decide

theorem bind_step {α β : Type} {a : Option α} {v : α} {f : α → Option β} {r : Option β} (h : a = some v) (h2 : f v = r) : (a >>= f) = r := by
  rw [h]; exact h2

theorem assert_step {β : Type} {b : Bool} {f : Unit → Option β} {r : Option β} (h : b = true) (h2 : f () = r) : (assertThat b >>= f) = r := by
  rw [h]; exact h2

/-- the relation between the final labels and the octads of the three phases -/
structure Labels (T : Fin 6 → Finset Pt) (s p : Quat → Fin 6 → Pt) (lab : Pt → Quat) : Prop where
  hi : ∀ l j, 2 ≤ j → lab (s l j) = l
  lo : ∀ l j, j < 4 → lab (p l j) = l

section
variable {C : Submodule (ZMod 2) (Fin 24 → ZMod 2)} {g : Code} {t : Fin 6 → Vector24} (hC : IsGolay C) (hg : CodeOk g C)
  (hs : Six (famOf C) fun i => (t i).set) {x y z : Pt} {alpha : Quat} {O : Finset Pt} {o : Fin 6 → Pt} {S : Quat → Finset Pt} {s : Quat → Fin 6 → Pt}
  (hp : Phase (famOf C) (fun i => (t i).set) x y z alpha O o S s)
include hC hg hs hp

/-- one round of the last loop -/
theorem labelFinal_spec {P : Quat → Vector24} {p : Quat → Fin 6 → Pt} (h3 : Phase3 (famOf C) (fun i => (t i).set) s (fun l => (P l).set) p) {four : List Nat}
    (hfour : ∀ l, ∃ five, Vector24.fromPoints (four ++ [(s l 3 : Nat)]) = some five ∧ g.completeOctad five = some (P l)) {F : Pt → Quat}
    (hF : ∀ l j, 2 ≤ j → F (s l j) = l) (l : Quat) :
    g.labelFinal (t 4) (t 5) four (List.ofFn F) (s l 3 : Nat) = some (List.ofFn fun r => if r ∈ (P l).set ∧ r ∉ (t 4).set ∧ r ∉ (t 5).set then l else F r) := by
  obtain ⟨five, h1, h2⟩ := hfour l
  unfold Code.labelFinal
  rw [get_ofFn, hF l 3 (by decide)]
  simp only [Option.bind_eq_bind, Option.bind_some, h1, h2]
  have := fold_labels (fun q => !(t 4).has q && !(t 5).has q) l (P l).fpts F
  rw [fpts_val] at this
  rw [this]
  congr 2
  funext r
  simp only [mem_fpts, Bool.and_eq_true, Bool.not_eq_true', ← Bool.not_eq_true, has_iff]

theorem final_loop {P : Quat → Vector24} {p : Quat → Fin 6 → Pt} (h3 : Phase3 (famOf C) (fun i => (t i).set) s (fun l => (P l).set) p) {four : List Nat}
    (hfour : ∀ l, ∃ five, Vector24.fromPoints (four ++ [(s l 3 : Nat)]) = some five ∧ g.completeOctad five = some (P l)) (L done : List Quat) (F : Pt → Quat)
    (hF : ∀ l j, 2 ≤ j → F (s l j) = l) (hd : ∀ l ∈ done, F (p l 0) = l ∧ F (p l 1) = l) :
    ∃ F', (L.map fun l => (s l 3 : Nat)).foldlM (g.labelFinal (t 4) (t 5) four) (List.ofFn F) = some (List.ofFn F') ∧
      (∀ l j, 2 ≤ j → F' (s l j) = l) ∧ ∀ l, l ∈ done ∨ l ∈ L → F' (p l 0) = l ∧ F' (p l 1) = l := by
  induction L generalizing done F with
  | nil => exact ⟨F, rfl, hF, fun l hl => hd l (by simpa using hl)⟩
  | cons l L ih =>
    have hFam := fam_of hC
    have not4 : ∀ j : Fin 6, j ≠ 4 → ∀ r ∈ (t j).set, r ∉ (t 4).set := fun j hj r h1 h2 => hj (hs.eq_col h1 h2)
    have not5 : ∀ j : Fin 6, j ≠ 5 → ∀ r ∈ (t j).set, r ∉ (t 5).set := fun j hj r h1 h2 => hj (hs.eq_col h1 h2)
    have new : ∀ m (j : Fin 6), j = 0 ∨ j = 1 → (if p m j ∈ (P l).set ∧ p m j ∉ (t 4).set ∧ p m j ∉ (t 5).set then l else F (p m j)) =
        if m = l then l else F (p m j) := by
      intro m j hj
      have j5 : j ≠ 5 := by rcases hj with rfl | rfl <;> decide
      have j4 : j ≠ 4 := by rcases hj with rfl | rfl <;> decide
      have jl : j < 4 := by rcases hj with rfl | rfl <;> decide
      have hm := (h3.triP m).hf j j5
      have e : p m j ∈ (P l).set ↔ m = l := by
        rw [(h3.triP l).one j j5 _ hm]
        exact (h3.p_inj hs hFam hp jl).eq_iff
      simp only [e, not4 j j4 _ hm, not5 j j5 _ hm, not_false_eq_true, and_true]
    obtain ⟨F', e1, e2, e3⟩ := ih (l :: done) (fun r => if r ∈ (P l).set ∧ r ∉ (t 4).set ∧ r ∉ (t 5).set then l else F r) (by
      intro m j hj
      split
      · rename_i h
        obtain ⟨h1, h2, h4⟩ := h
        have hm := (hp.triS m).hf j (two_ne hj).1
        have hj4 : j ≠ 4 := by rintro rfl; exact h2 hm
        have hj5 : j ≠ 5 := by rintro rfl; exact h4 hm
        have hpm := ((h3.triP l).one j hj5 _ hm).1 h1
        have : p l j = s l j := by
          have : j = 2 ∨ j = 3 := two_three j hj hj4 hj5
          rcases this with rfl | rfl
          · exact h3.p2 hs hFam hp l
          · exact h3.p3 l
        rw [this] at hpm
        exact (hp.s_inj hs hFam hj hpm).symm
      · exact hF m j hj) (by
      intro m hm
      simp only [new m 0 (Or.inl rfl), new m 1 (Or.inr rfl)]
      by_cases hml : m = l
      · simp [hml]
      · simp only [hml, if_false]
        exact hd m ((List.mem_cons.1 hm).resolve_left hml))
    refine ⟨F', ?_, e2, ?_⟩
    · rw [List.map_cons, List.foldlM_cons, labelFinal_spec hC hg hs hp h3 hfour hF l]
      exact e1
    · intro m hm
      apply e3
      simp only [List.mem_cons] at hm ⊢
      tauto

end

theorem checkFoursome_spec {T : Fin 6 → Finset Pt} {C : Finset (Finset Pt)} (hs : Six C T) {lab : Pt → Quat} {v : Vector24} {j : Fin 6} (hv : v.set = T j)
    (f : Quat → Pt) (hf : ∀ l, f l ∈ T j) (hlab : ∀ l, lab (f l) = l) : checkFoursome (List.ofFn lab) v = some () ∧
      (∀ r ∈ T j, f (lab r) = r) := by
  have hinj : Function.Injective f := fun a b e => by rw [← hlab a, e, hlab b]
  have hinv : ∀ r ∈ T j, f (lab r) = r := by
    intro r hr
    obtain ⟨l, rfl⟩ := hs.hit hinj hf hr
    rw [hlab]
  refine ⟨?_, hinv⟩
  have hl : labelsOf (List.ofFn lab) v = some (v.fpts.map lab) := by
    unfold labelsOf
    rw [← fpts_val, List.mapM_map, mapM_eq_map (g := lab)]
    intro r _
    exact get_ofFn lab r
  have hcount : ∀ l, (v.fpts.map lab).count l = 1 := by
    intro l
    apply List.count_eq_one_of_mem
    · refine (nodup_fpts v).map_on ?_
      intro a ha b hb e
      rw [← hinv a (hv ▸ mem_fpts.1 ha), ← hinv b (hv ▸ mem_fpts.1 hb), e]
    · exact List.mem_map.2 ⟨f l, mem_fpts.2 (hv ▸ hf l), hlab l⟩
  unfold checkFoursome
  rw [hl]
  simp [hcount, assertThat]

theorem quat_cover (alpha l : Quat) : hexa alpha 2 = l ∨ hexa alpha 3 = l ∨ hexa alpha 4 = l ∨ hexa alpha 5 = l := by
  revert alpha l; decide

theorem labelRound_spec {g : Code} {t0 t2345 five oct : Vector24} {x y w : Pt} {l : Quat}
    (h1 : Vector24.fromPoints (t0.pts.filter (fun r => r != (x : Nat)) ++ [(y : Nat), (w : Nat)]) = some five) (h2 : g.completeOctad five = some oct) (F : Pt → Quat) :
    g.labelRound t0 t2345 x y (List.ofFn F) (l, w) = some (List.ofFn fun r => if r ∈ oct.set ∩ t2345.set then l else F r) := by
  unfold Code.labelRound
  simp only [h1, h2, Option.bind_eq_bind, Option.bind_some]
  rw [fold_vec, set_and]

/-- `complete_labelling` succeeds -/
theorem completeLabelling_spec {C : Submodule (ZMod 2) (Fin 24 → ZMod 2)} {g : Code} (hC : IsGolay C) (hg : CodeOk g C) {t : Fin 6 → Vector24}
    (hs : Six (famOf C) fun i => (t i).set) {x y z w : Pt} (hx : x ∈ (t 0).set) (hy : y ∈ (t 1).set) (hz : z ∈ (t 1).set) (hw : w ∈ (t 2).set)
    (hyz : y ≠ z) (alpha : Quat) :
    ∃ (lab : Pt → Quat) (O : Finset Pt) (o : Fin 6 → Pt) (S : Quat → Finset Pt) (s : Quat → Fin 6 → Pt) (P : Quat → Finset Pt) (p : Quat → Fin 6 → Pt),
      g.completeLabelling (List.ofFn t) x y z w alpha = some (List.ofFn lab) ∧ Phase (famOf C) (fun i => (t i).set) x y z alpha O o S s ∧ o 2 = w ∧
      Phase3 (famOf C) (fun i => (t i).set) s P p ∧ Labels (fun i => (t i).set) s p lab := by
  have hFam := fam_of hC
  obtain ⟨five, O, o, O1, O2, O3, O4, O5⟩ := run_tri0 hC hg hs (t0 := t 0) rfl hx hz (c := 2) (by decide) hw
  have hS : ∀ l, ∃ (oct : Vector24) (f : Fin 6 → Pt), Tri (famOf C) (fun i => (t i).set) oct.set 0 x f ∧ f 1 = y ∧ ∀ i, 2 ≤ i → hexa alpha i = l →
      f i = o i ∧ ∃ five, Vector24.fromPoints ((t 0).pts.filter (fun r => r != (x : Nat)) ++ [(y : Nat), (o i : Nat)]) = some five ∧ g.completeOctad five = some oct := by
    intro l
    obtain ⟨i, i2, hi⟩ := hexa_surj alpha l
    obtain ⟨five, oct, f, e1, e2, e3, e4, e5⟩ := run_tri0 hC hg hs (t0 := t 0) rfl hx hy i2 (O3.hf i (two_ne i2).1)
    refine ⟨oct, f, e3, e4, fun j j2 hj => ?_⟩
    have : j = i := hexa_inj alpha j i j2 i2 (hj.trans hi.symm)
    subst this
    exact ⟨e5, five, e1, e2⟩
  choose S s S1 S2 S3 using hS
  have hp : Phase (famOf C) (fun i => (t i).set) x y z alpha O.set o (fun l => (S l).set) s :=
    ⟨hx, hy, hz, hyz, O3, O4, S1, S2, fun i hi => (S3 _ i hi rfl).1⟩
  -- the state after the second phase
  have t2345 : ∀ j : Fin 6, 2 ≤ j → ∀ r ∈ (t j).set, r ∈ ((((t 2).or (t 3)).or (t 4)).or (t 5)).set := by
    intro j hj r hr
    have := two_five j hj
    simp only [set_or, mem_union]
    rcases this with rfl | rfl | rfl | rfl <;> tauto
  have w16 : ((((t 2).or (t 3)).or (t 4)).or (t 5)).weight = 16 := by
    rw [weight_eq, set_or, set_or, set_or, card_union_of_disjoint, card_union_of_disjoint, card_union_of_disjoint, hs.four 2, hs.four 3, hs.four 4, hs.four 5]
    · exact hs.disj 2 3 (by decide)
    · exact disjoint_union_left.2 ⟨hs.disj 2 4 (by decide), hs.disj 3 4 (by decide)⟩
    · exact disjoint_union_left.2 ⟨disjoint_union_left.2 ⟨hs.disj 2 5 (by decide), hs.disj 3 5 (by decide)⟩, hs.disj 4 5 (by decide)⟩
  have round : ∀ (i : Fin 6), 2 ≤ i → ∀ F : Pt → Quat, g.labelRound (t 0) ((((t 2).or (t 3)).or (t 4)).or (t 5)) x y (List.ofFn F) (hexa alpha i, o i) =
      some (List.ofFn fun r => if r ∈ (S (hexa alpha i)).set ∩ ((((t 2).or (t 3)).or (t 4)).or (t 5)).set then hexa alpha i else F r) := by
    intro i hi F
    obtain ⟨-, five, e1, e2⟩ := S3 (hexa alpha i) i hi rfl
    exact labelRound_spec e1 e2 F
  have hsmem : ∀ l m (j : Fin 6), 2 ≤ j → (s l j ∈ (S m).set ∩ ((((t 2).or (t 3)).or (t 4)).or (t 5)).set ↔ m = l) := by
    intro l m j hj
    have hm := (S1 l).hf j (two_ne hj).1
    rw [mem_inter, (S1 m).one j (two_ne hj).1 _ hm]
    constructor
    · rintro ⟨h1, -⟩; exact (hp.s_inj hs hFam hj h1).symm
    · rintro rfl; exact ⟨rfl, t2345 j hj _ hm⟩
  have F2 : ∀ F : Pt → Quat, ∃ F', [(hexa alpha 2, (o 2 : Nat)), (hexa alpha 3, (o 3 : Nat)), (hexa alpha 4, (o 4 : Nat)), (hexa alpha 5, (o 5 : Nat))].foldlM
      (g.labelRound (t 0) ((((t 2).or (t 3)).or (t 4)).or (t 5)) x y) (List.ofFn F) = some (List.ofFn F') ∧ ∀ l j, 2 ≤ j → F' (s l j) = l := by
    intro F
    refine ⟨fun r => if r ∈ (S (hexa alpha 5)).set ∩ ((((t 2).or (t 3)).or (t 4)).or (t 5)).set then hexa alpha 5 else if r ∈ (S (hexa alpha 4)).set ∩ ((((t 2).or (t 3)).or (t 4)).or (t 5)).set then hexa alpha 4 else if r ∈ (S (hexa alpha 3)).set ∩ ((((t 2).or (t 3)).or (t 4)).or (t 5)).set then hexa alpha 3 else if r ∈ (S (hexa alpha 2)).set ∩ ((((t 2).or (t 3)).or (t 4)).or (t 5)).set then hexa alpha 2 else F r, ?_, ?_⟩
    · refine bind_step (round 2 (by decide) _) (bind_step (round 3 (by decide) _) (bind_step (round 4 (by decide) _) (bind_step (round 5 (by decide) _) ?_)))
      rfl
    · intro l j hj
      simp only [hsmem l _ j hj]
      have := quat_cover alpha l
      by_cases h5 : hexa alpha 5 = l
      · simp [h5]
      · by_cases h4 : hexa alpha 4 = l
        · simp [h5, h4]
        · by_cases h3 : hexa alpha 3 = l
          · simp [h5, h4, h3]
          · simp [h5, h4, h3, (this.resolve_right (by tauto))]
  -- the third phase
  obtain ⟨F', f1, f2⟩ := F2 (Function.update (Function.update (Function.update (Function.update (Function.update (fun _ => .zero) z .one) w alpha) (o 3) (hexa alpha 3))
    (o 4) (hexa alpha 4)) (o 5) (hexa alpha 5))
  have zero_iff : ∀ j : Fin 6, 2 ≤ j → ∀ r ∈ (t j).set, F' r = .zero ↔ r = s .zero j := by
    intro j hj r hr
    obtain ⟨l, rfl⟩ := hs.hit (hp.s_inj hs hFam hj) (fun l => (S1 l).hf j (two_ne hj).1) hr
    rw [f2 l j hj]
    exact ((hp.s_inj hs hFam hj).eq_iff (f := fun l => s l j)).symm
  have hP : ∀ l, ∃ (oct : Vector24) (f : Fin 6 → Pt), Tri (famOf C) (fun i => (t i).set) oct.set 5 (s .zero 5) f ∧ f 4 = s .zero 4 ∧ f 3 = s l 3 ∧
      ∃ five, Vector24.fromPoints (((t 5).pts.filter (fun r => decide ((if h : r < 24 then F' ⟨r, h⟩ else .zero) ≠ .zero)) ++
        (t 4).pts.filter (fun r => decide ((if h : r < 24 then F' ⟨r, h⟩ else .zero) = .zero))) ++ [(s l 3 : Nat)]) = some five ∧ g.completeOctad five = some oct := by
    intro l
    obtain ⟨five, oct, f, e1, e2, e3, e4, e5⟩ := run_tri hC hg hs (L := ((t 5).pts.filter (fun r => decide ((if h : r < 24 then F' ⟨r, h⟩ else .zero) ≠ .zero)) ++
        (t 4).pts.filter (fun r => decide ((if h : r < 24 then F' ⟨r, h⟩ else .zero) = .zero))) ++ [(s l 3 : Nat)]) (by
        intro r hr
        simp only [List.mem_append, List.mem_filter, List.mem_cons, List.not_mem_nil, or_false] at hr
        rcases hr with (hr | hr) | hr
        · exact (mem_pts.1 hr.1).1
        · exact (mem_pts.1 hr.1).1
        · rw [hr]; exact (s l 3).2) (a := 5) (b := 4) (c := 3) (by decide) (by decide) (by decide) ((S1 .zero).hf 5 (by decide)) ((S1 .zero).hf 4 (by decide))
        ((S1 l).hf 3 (by decide)) (by
        intro r
        simp only [List.mem_append, List.mem_filter, List.mem_cons, List.not_mem_nil, or_false, mem_pts', r.2, dif_pos, Fin.eta, decide_eq_true_eq, Fin.val_inj, ne_eq]
        constructor
        · rintro ((⟨h1, h2⟩ | ⟨h1, h2⟩) | h1)
          · exact Or.inr (Or.inr ⟨h1, fun e => h2 ((zero_iff 5 (by decide) r h1).2 e)⟩)
          · exact Or.inl ((zero_iff 4 (by decide) r h1).1 h2)
          · exact Or.inr (Or.inl h1)
        · rintro (h1 | h1 | ⟨h1, h2⟩)
          · have : r ∈ (t 4).set := by rw [h1]; exact (S1 .zero).hf 4 (by decide)
            exact Or.inl (Or.inr ⟨this, (zero_iff 4 (by decide) r this).2 h1⟩)
          · exact Or.inr h1
          · exact Or.inl (Or.inl ⟨h1, fun e => h2 ((zero_iff 5 (by decide) r h1).1 e)⟩))
    exact ⟨oct, f, e3, e4, e5, five, e1, e2⟩
  choose P p P1 P2 P3 P4 using hP
  have h3 : Phase3 (famOf C) (fun i => (t i).set) s (fun l => (P l).set) p := ⟨P1, P2, P3⟩
  generalize hfour : ((t 5).pts.filter (fun r => decide ((if h : r < 24 then F' ⟨r, h⟩ else .zero) ≠ .zero)) ++
        (t 4).pts.filter (fun r => decide ((if h : r < 24 then F' ⟨r, h⟩ else .zero) = .zero))) = four at P4
  have hff : finalFour (List.ofFn F') (t 4) (t 5) = some four := by
    unfold finalFour
    rw [filterM_some (g := fun r => decide ((if h : r < 24 then F' ⟨r, h⟩ else .zero) ≠ .zero)),
      filterM_some (g := fun r => decide ((if h : r < 24 then F' ⟨r, h⟩ else .zero) = .zero))]
    · simp only [Option.bind_eq_bind, Option.bind_some, hfour]
    · intro r hr
      obtain ⟨hlt, -⟩ := mem_pts.1 hr
      have := get_ofFn F' ⟨r, hlt⟩
      simp only at this
      rw [this]
      simp [hlt]
    · intro r hr
      obtain ⟨hlt, -⟩ := mem_pts.1 hr
      have := get_ofFn F' ⟨r, hlt⟩
      simp only at this
      rw [this]
      simp [hlt]
  have hlen : four.length = 4 := by
    rw [← hfour, List.length_append, length_filter, length_filter]
    have e5 : ((t 5).set.filter fun r : Pt => decide ((if h : (r : Nat) < 24 then F' ⟨r, h⟩ else .zero) ≠ .zero) = true) = (t 5).set.erase (s .zero 5) := by
      ext r
      simp only [mem_filter, mem_erase, r.2, dif_pos, decide_eq_true_eq, Fin.eta]
      constructor
      · rintro ⟨h1, h2⟩; exact ⟨fun e => h2 ((zero_iff 5 (by decide) r h1).2 e), h1⟩
      · rintro ⟨h1, h2⟩; exact ⟨h2, fun e => h1 ((zero_iff 5 (by decide) r h2).1 e)⟩
    have e4 : ((t 4).set.filter fun r : Pt => decide ((if h : (r : Nat) < 24 then F' ⟨r, h⟩ else .zero) = .zero) = true) = {s .zero 4} := by
      ext r
      simp only [mem_filter, mem_singleton, r.2, dif_pos, decide_eq_true_eq, Fin.eta]
      constructor
      · rintro ⟨h1, h2⟩; exact (zero_iff 4 (by decide) r h1).1 h2
      · rintro h1
        have : r ∈ (t 4).set := by rw [h1]; exact (S1 .zero).hf 4 (by decide)
        exact ⟨this, (zero_iff 4 (by decide) r this).2 h1⟩
    rw [e5, e4, card_erase_of_mem ((S1 .zero).hf 5 (by decide)), hs.four 5, card_singleton]
  -- the loop over the points of the fourth foursome
  obtain ⟨L, hL⟩ : ∃ L : List Quat, (t 3).fpts = L.map fun l => s l 3 := by
    refine ⟨(t 3).fpts.map F', ?_⟩
    rw [List.map_map]
    conv_lhs => rw [← List.map_id (t 3).fpts]
    apply List.map_congr_left
    intro r hr
    obtain ⟨l, rfl⟩ := hs.hit (hp.s_inj hs hFam (j := 3) (by decide)) (fun l => (S1 l).hf 3 (by decide)) (mem_fpts.1 hr)
    simp only [Function.comp, f2 l 3 (by decide), id]
  have hLall : ∀ l, l ∈ L := by
    intro l
    have : s l 3 ∈ (t 3).fpts := mem_fpts.2 ((S1 l).hf 3 (by decide))
    rw [hL] at this
    obtain ⟨m, hm, e⟩ := List.mem_map.1 this
    rw [← hp.s_inj hs hFam (j := 3) (by decide) e]
    exact hm
  obtain ⟨lab, g1, g2, g3⟩ := final_loop hC hg hs hp h3 P4 L [] F' f2 (by simp)
  have hpts : (t 3).pts = L.map fun l => (s l 3 : Nat) := by
    rw [← fpts_val, hL, List.map_map]
    rfl
  have hlabels : Labels (fun i => (t i).set) s p lab := by
    refine ⟨g2, fun l j hj => ?_⟩
    have : j = 0 ∨ j = 1 ∨ j = 2 ∨ j = 3 := by revert j; decide
    rcases this with rfl | rfl | rfl | rfl
    · exact (g3 l (Or.inr (hLall l))).1
    · exact (g3 l (Or.inr (hLall l))).2
    · rw [h3.p2 hs hFam hp]; exact g2 l 2 (by decide)
    · rw [h3.p3]; exact g2 l 3 (by decide)
  have hcheck : ∀ j : Fin 6, checkFoursome (List.ofFn lab) (t j) = some () := by
    intro j
    by_cases hj : j < 4
    · have hj5 : j ≠ 5 := by rintro rfl; exact absurd hj (by decide)
      exact (checkFoursome_spec hs rfl (fun l => p l j) (fun l => (P1 l).hf j hj5) (fun l => hlabels.lo l j hj)).1
    · have hj2 : 2 ≤ j := le_trans (by decide) (not_lt.1 hj)
      exact (checkFoursome_spec hs rfl (fun l => s l j) (fun l => (S1 l).hf j (two_ne hj2).1) (fun l => hlabels.hi l j hj2)).1
  have so : ∀ i, 2 ≤ i → s (hexa alpha i) i = o i := hp.so
  have co : ∀ i, 2 ≤ i → checkLabel (List.ofFn F') (o i) (hexa alpha i) = some () := fun i hi => checkLabel_ofFn (by rw [← so i hi, f2 _ i hi])
  have cl : ∀ i, 2 ≤ i → checkLabel (List.ofFn lab) (o i) (hexa alpha i) = some () := fun i hi => checkLabel_ofFn (by rw [← so i hi, g2 _ i hi])
  have cx : checkLabel (List.ofFn lab) x .zero = some () := checkLabel_ofFn (by rw [← h3.at_x hs hFam hp]; exact hlabels.lo _ 0 (by decide))
  have cy : checkLabel (List.ofFn lab) y .zero = some () := checkLabel_ofFn (by rw [← h3.at_y hs hFam hp]; exact hlabels.lo _ 1 (by decide))
  have cz : checkLabel (List.ofFn lab) z .one = some () := checkLabel_ofFn (by rw [← h3.at_z hs hFam hp]; exact hlabels.lo _ 1 (by decide))
  refine ⟨lab, O.set, o, fun l => (S l).set, s, fun l => (P l).set, p, ?_, hp, O5, h3, hlabels⟩
  have u : ∀ i, 2 ≤ i → takeUniquePt (O.and (t i)) = some (o i : Nat) := fun i hi => takeUnique (O3.hf i (two_ne hi).1) (O3.one i (two_ne hi).1)
  have fs := foursome_ofFn t
  have fs0 : foursome (List.ofFn t) 0 = some (t 0) := fs 0
  have fs1 : foursome (List.ofFn t) 1 = some (t 1) := fs 1
  have fs2 : foursome (List.ofFn t) 2 = some (t 2) := fs 2
  have fs3 : foursome (List.ofFn t) 3 = some (t 3) := fs 3
  have fs4 : foursome (List.ofFn t) 4 = some (t 4) := fs 4
  have fs5 : foursome (List.ofFn t) 5 = some (t 5) := fs 5
  have hrep : List.replicate 24 Quat.zero = List.ofFn (fun _ : Pt => Quat.zero) := by rw [List.ofFn_const]
  have hne : (y : Nat) ≠ z := fun e => hyz (Fin.ext e)
  have range6 : List.range 6 = [0, 1, 2, 3, 4, 5] := rfl
  have f1' := f1
  rw [O5] at f1'
  have co2 := co 2 (by decide)
  have cl2 := cl 2 (by decide)
  rw [O5] at co2 cl2
  have e2 : hexa alpha 2 = alpha := rfl
  rw [e2] at f1' co2 cl2
  have u2 := u 2 (by decide)
  rw [O5] at u2
  unfold Code.completeLabelling
  refine bind_step fs0 (bind_step fs1 (bind_step fs2 ?_))
  refine bind_step (contains_eq (t 0) x) (assert_step (decide_eq_true hx) ?_)
  refine bind_step (contains_eq (t 1) y) (assert_step (decide_eq_true hy) ?_)
  refine bind_step (contains_eq (t 1) z) (assert_step (decide_eq_true hz) ?_)
  refine bind_step (contains_eq (t 2) w) (assert_step (decide_eq_true hw) (assert_step (decide_eq_true hne) ?_))
  dsimp only
  rw [hrep, hexacode_eq]
  refine bind_step (checkLabel_ofFn rfl) (bind_step (checkLabel_ofFn rfl) (bind_step (setLabel_ofFn _ z _) (bind_step (setLabel_ofFn _ w _) ?_)))
  refine bind_step fs3 (bind_step fs4 (bind_step fs5 ?_))
  refine bind_step O1 (bind_step O2 (bind_step u2 (bind_step (u 3 (by decide)) (bind_step (u 4 (by decide)) (bind_step (u 5 (by decide)) ?_)))))
  refine assert_step (decide_eq_true rfl) ?_
  refine bind_step (setLabel_ofFn _ (o 3) _) (bind_step (setLabel_ofFn _ (o 4) _) (bind_step (setLabel_ofFn _ (o 5) _) ?_))
  refine assert_step (by rw [w16]; rfl) ?_
  refine bind_step f1' ?_
  refine bind_step (v := ()) ?_ ?_
  · exact bind_step co2 (bind_step (co 3 (by decide)) (bind_step (co 4 (by decide)) (bind_step (co 5 (by decide)) rfl)))
  refine bind_step hff (assert_step (by rw [hlen]; rfl) ?_)
  rw [hpts]
  refine bind_step g1 (bind_step (v := ()) ?_ ?_)
  · unfold checkSeven
    exact bind_step cx (bind_step cy (bind_step cz (bind_step cl2 (bind_step (cl 3 (by decide)) (bind_step (cl 4 (by decide)) (bind_step (cl 5 (by decide)) rfl))))))
  simp only [range6, List.forIn_cons, List.forIn_nil, fs0, fs1, fs2, fs3, fs4, fs5, hcheck, Option.bind_eq_bind, Option.bind_some, pure]

end Verif.Golay
