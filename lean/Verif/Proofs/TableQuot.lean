import Verif.Proofs.TablePartition

/-! `from_subsets`, quotient groups, `Subgroup::to_group`. -/

namespace Verif.Table

open VGrp

/-! ## from_subsets -/

theorem setM_spec (n k : Nat) (c : List Nat) (l : List Nat) :
    c.foldlM (fun (l : List Nat) x => if x < n then some (l.set x k) else none) l =
      if ∀ x ∈ c, x < n then some (c.foldl (fun (l : List Nat) y => l.set y k) l) else none := by
  induction c generalizing l with
  | nil => simp
  | cons a t ih =>
    rw [List.foldlM_cons]
    by_cases ha : a < n
    · rw [if_pos ha]
      change t.foldlM _ (l.set a k) = _
      rw [ih, List.foldl_cons]
      by_cases ht : ∀ x ∈ t, x < n
      · rw [if_pos ht, if_pos]
        intro x hx
        rcases List.mem_cons.1 hx with rfl | hx
        · exact ha
        · exact ht x hx
      · rw [if_neg ht, if_neg]
        intro h; exact ht fun x hx => h x (by simp [hx])
    · rw [if_neg ha, if_neg (fun h => ha (h a (by simp)))]; rfl

theorem lookupM_spec (n : Nat) (cs : List (Finset Nat)) : ∀ (s : Nat) (l : List Nat), l.length = n →
    ((¬ ∀ c ∈ cs, ∀ x ∈ c, x < n) → (cs.zipIdx s).foldlM (fun (l : List Nat) (ci : Finset Nat × Nat) =>
      (ci.1.sort (· ≤ ·)).foldlM (fun (l : List Nat) x => if x < n then some (l.set x ci.2) else none) l) l = none) ∧
    ((∀ c ∈ cs, ∀ x ∈ c, x < n) → ∃ r, (cs.zipIdx s).foldlM (fun (l : List Nat) (ci : Finset Nat × Nat) =>
      (ci.1.sort (· ≤ ·)).foldlM (fun (l : List Nat) x => if x < n then some (l.set x ci.2) else none) l) l = some r ∧ r.length = n ∧
      (∀ x, x < n → (∀ c ∈ cs, x ∉ c) → r.getD x 0 = l.getD x 0) ∧
      (cs.Pairwise Disjoint → ∀ k (hk : k < cs.length) x, x ∈ cs[k] → r.getD x 0 = s + k)) := by
  induction cs with
  | nil => intro s l hl; exact ⟨by simp, fun _ => ⟨l, rfl, hl, by simp, by simp⟩⟩
  | cons c t ih =>
    intro s l hl
    rw [List.zipIdx_cons, List.foldlM_cons, setM_spec]
    by_cases hc : ∀ x ∈ c.sort (· ≤ ·), x < n
    · rw [if_pos hc]
      obtain ⟨f1, f2⟩ := foldl_set_spec s (c.sort (· ≤ ·)) l
      change (_ → List.foldlM _ (List.foldl _ l _) _ = none) ∧ (_ → ∃ r, List.foldlM _ (List.foldl _ l _) _ = some r ∧ _)
      obtain ⟨i1, i2⟩ := ih (s + 1) (List.foldl (fun l y => l.set y s) l (c.sort (· ≤ ·))) (by rw [f1, hl])
      simp only [Finset.mem_sort] at hc
      constructor
      · intro h
        apply i1
        intro h'; apply h
        intro d hd
        rcases List.mem_cons.1 hd with rfl | hd
        · exact hc
        · exact h' d hd
      · intro h
        obtain ⟨r, r1, r2, r3, r4⟩ := i2 fun d hd => h d (by simp [hd])
        refine ⟨r, r1, r2, ?_, ?_⟩
        · intro x hx hno
          rw [r3 x hx fun d hd => hno d (by simp [hd]), f2 x (by rw [hl]; exact hx), if_neg]
          simp only [Finset.mem_sort]
          exact hno c (by simp)
        · intro hd k hk x hx
          rw [List.pairwise_cons] at hd
          cases k with
          | zero =>
            rw [List.getElem_cons_zero] at hx
            rw [r3 x (hc x hx) fun d hd' => Finset.disjoint_left.1 (hd.1 d hd') hx, f2 x (by rw [hl]; exact hc x hx), if_pos (by simpa using hx)]
            rfl
          | succ k =>
            rw [List.getElem_cons_succ] at hx
            rw [r4 hd.2 k (by simpa using hk) x hx]; omega
    · rw [if_neg hc]
      simp only [Finset.mem_sort] at hc
      refine ⟨fun _ => rfl, fun h => absurd (h c (by simp)) hc⟩

theorem fromSubsets_spec (n : Nat) (cs : List (Finset Nat)) :
    ((PState.fromSubsets n cs).isSome = true ↔ SetPartition n cs) ∧
    ∀ s, PState.fromSubsets n cs = some s → s.classes = cs ∧ IsPart n s := by
  have hdef : PState.fromSubsets n cs = 
      match (cs.zipIdx 0).foldlM (fun (l : List Nat) (ci : Finset Nat × Nat) =>
      (ci.1.sort (· ≤ ·)).foldlM (fun (l : List Nat) x => if x < n then some (l.set x ci.2) else none) l) (List.replicate n 0) with
      | none => none
      | some lookup => if PState.check n ⟨cs, lookup⟩ then some ⟨cs, lookup⟩ else none := rfl
  rw [hdef]
  obtain ⟨h1, h2⟩ := lookupM_spec n cs 0 (List.replicate n 0) (by simp)
  by_cases hc : ∀ c ∈ cs, ∀ x ∈ c, x < n
  · obtain ⟨r, r1, r2, r3, r4⟩ := h2 hc
    rw [r1]
    simp only
    refine ⟨?_, ?_⟩
    · have : (if PState.check n ⟨cs, r⟩ = true then some (PState.mk cs r) else none).isSome = true ↔ PState.check n ⟨cs, r⟩ = true := by
        split <;> simp_all
      rw [this, check_spec]
      constructor
      · intro h; exact ⟨h.nonempty, h.disj, h.cover⟩
      · rintro ⟨a, b, c⟩
        refine ⟨a, b, c, r2, ?_⟩
        intro x hx
        obtain ⟨d, hd, hxd⟩ := (c x).2 hx
        obtain ⟨k, hk, rfl⟩ := List.getElem_of_mem hd
        have := r4 b k hk x hxd
        simp only [this, zero_add]
        exact ⟨cs[k], List.getElem?_eq_getElem hk, hxd⟩
    · intro s hs
      split at hs
      · rename_i hch
        simp only [Option.some.injEq] at hs
        subst hs
        exact ⟨rfl, (check_spec _ _).1 hch⟩
      · simp at hs
  · rw [h1 hc]
    simp only [Option.isSome_none, Bool.false_eq_true, false_iff]
    refine ⟨fun h => hc fun c hcm x hx => (h.2.2 x).1 ⟨c, hcm, hx⟩, by simp⟩

/-! ## Quotients -/

theorem firstElem_mem (c : Finset Nat) (h : c.Nonempty) : firstElem c ∈ c := by
  unfold firstElem
  have hne : c.sort (· ≤ ·) ≠ [] := by
    intro e
    obtain ⟨x, hx⟩ := h
    rw [← Finset.mem_sort (· ≤ ·), e] at hx
    simp at hx
  cases hs : c.sort (· ≤ ·) with
  | nil => exact absurd hs hne
  | cons a t =>
    simp only [List.headD_cons]
    rw [← Finset.mem_sort (· ≤ ·), hs]; simp

section quot
variable {G : VGrp}

open Classical in
/-- the coset denoted by a block index -/
noncomputable def quotDecode (H : Subgroup G.Elem) (s : PState) (k : Nat) : G.Elem ⧸ H :=
  if h : firstElem (s.classes.getD k ∅) < G.g.n then QuotientGroup.mk (G.el _ h) else QuotientGroup.mk 1

variable (S : Finset Nat) (H : Subgroup G.Elem) (hH : G.Denotes S H) (s : PState) (hs : ClassesOf G.g.n (leftCls G.g S) s)

include hH hs in
/-- in a coset partition the lookup of `x` denotes the coset of `x` -/
theorem quotDecode_lookup (x : G.Elem) : s.lookup.getD x.idx 0 < s.classes.length ∧ quotDecode H s (s.lookup.getD x.idx 0) = QuotientGroup.mk x := by
  obtain ⟨f1, f2, f3⟩ := leftCls_facts S H hH
  have hl := hs.look_lt x.idx (idx_lt x)
  refine ⟨hl, ?_⟩
  have hp : s.classes.getD (s.lookup.getD x.idx 0) ∅ = leftCls G.g S x.idx := hs.proj _ (idx_lt x)
  have hm := firstElem_mem (leftCls G.g S x.idx) ⟨_, f1 _ (idx_lt x)⟩
  unfold quotDecode
  rw [hp]
  rw [dif_pos (f2 _ (idx_lt x) _ hm)]
  obtain ⟨z, h1, h2⟩ := (mem_leftCls S H hH x _).1 hm
  have : G.el _ (f2 _ (idx_lt x) _ hm) = z := Elem.ext h1.symm
  rw [this, eq_comm, QuotientGroup.eq]
  exact h2

include hH hs in
theorem block_rep (k : Nat) (hk : k < s.classes.length) : ∃ x : G.Elem, x.idx = firstElem (s.classes.getD k ∅) ∧ s.lookup.getD x.idx 0 = k := by
  obtain ⟨f1, f2, f3⟩ := leftCls_facts S H hH
  have hpart := hs.isPart f1 f2
  have hc : s.classes.getD k ∅ = s.classes[k] := List.getD_eq_getElem _ _ hk
  have hm := firstElem_mem _ (hpart.nonempty _ (List.getElem_mem hk))
  have hlt := (hpart.cover _).1 ⟨_, List.getElem_mem hk, hm⟩
  refine ⟨G.el _ hlt, by rw [hc]; rfl, ?_⟩
  exact (hpart.mem_iff _ hlt k hk).1 hm

theorem quotientOf_models [H.Normal] (hH : G.Denotes S H) (hs : ClassesOf G.g.n (leftCls G.g S) s) : Models (quotientOf G.g s) (quotDecode H s) := by
  have hn : (quotientOf G.g s).n = s.classes.length := rfl
  have hI : ∀ a, a < s.classes.length → (quotientOf G.g s).i a = s.lookup.getD (G.g.i (firstElem (s.classes.getD a ∅))) 0 :=
    fun a ha => i_of_map (quotientOf G.g s) _ (fun a => s.lookup.getD (G.g.i (firstElem (s.classes.getD a ∅))) 0) rfl a ha
  have hM : ∀ a b, a < s.classes.length → b < s.classes.length → (quotientOf G.g s).m a b =
      s.lookup.getD (G.g.m (firstElem (s.classes.getD a ∅)) (firstElem (s.classes.getD b ∅))) 0 :=
    fun a b ha hb => m_of_map (quotientOf G.g s) _
      (fun a b => s.lookup.getD (G.g.m (firstElem (s.classes.getD a ∅)) (firstElem (s.classes.getD b ∅))) 0) rfl a b ha hb
  have hrep := block_rep S H hH s hs
  have hlook := quotDecode_lookup S H hH s hs
  have hdec : ∀ x : G.Elem, ∀ k, s.lookup.getD x.idx 0 = k → quotDecode H s k = QuotientGroup.mk x := by
    intro x k e; rw [← e]; exact (hlook x).2
  constructor
  · intro a b ha hb h
    obtain ⟨x, -, hx2⟩ := hrep a ha
    obtain ⟨y, -, hy2⟩ := hrep b hb
    rw [hdec x a hx2, hdec y b hy2, QuotientGroup.eq] at h
    rw [← hx2, ← hy2]
    obtain ⟨f1, f2, f3⟩ := leftCls_facts S H hH
    rw [hs.lookup_eq_iff f3 f1 _ _ (idx_lt x) (idx_lt y), mem_leftCls S H hH]
    exact ⟨y, rfl, h⟩
  · exact (hlook 1).1
  · exact (hlook 1).2
  · simp [quotientOf]
  · simp [quotientOf]
  · intro r hr
    simp only [quotientOf, List.mem_map] at hr
    obtain ⟨x, -, rfl⟩ := hr
    simp [quotientOf]
  · intro a ha
    obtain ⟨x, hx1, hx2⟩ := hrep a ha
    rw [hI a ha, ← hx1, ← idx_inv]
    exact (hlook _).1
  · intro a ha
    obtain ⟨x, hx1, hx2⟩ := hrep a ha
    rw [hI a ha, ← hx1, ← idx_inv, (hlook _).2, hdec x a hx2]
    rfl
  · intro a b ha hb
    obtain ⟨x, hx1, hx2⟩ := hrep a ha
    obtain ⟨y, hy1, hy2⟩ := hrep b hb
    rw [hM a b ha hb, ← hx1, ← hy1, ← idx_mul]
    exact (hlook _).1
  · intro a b ha hb
    obtain ⟨x, hx1, hx2⟩ := hrep a ha
    obtain ⟨y, hy1, hy2⟩ := hrep b hb
    rw [hM a b ha hb, ← hx1, ← hy1, ← idx_mul, (hlook _).2, hdec x a hx2, hdec y b hy2]
    rfl

end quot

/-! ## Subgroups as groups -/

theorem back_spec (n : Nat) (l : List Nat) (hnd : l.Nodup) (hl : ∀ x ∈ l, x < n) (k : Nat) (hk : k < l.length) :
    (l.zipIdx.foldl (fun (b : List (Option Nat)) xi => b.set xi.1 (some xi.2)) (List.replicate n none)).getD l[k] none = some k := by
  suffices H : ∀ (l : List Nat) (s : Nat) (b : List (Option Nat)), b.length = n → l.Nodup → (∀ x ∈ l, x < n) →
      (∀ k (hk : k < l.length), ((l.zipIdx s).foldl (fun (b : List (Option Nat)) xi => b.set xi.1 (some xi.2)) b).getD l[k] none = some (s + k)) ∧
      (∀ x, x ∉ l → ((l.zipIdx s).foldl (fun (b : List (Option Nat)) xi => b.set xi.1 (some xi.2)) b).getD x none = b.getD x none) by
    simpa using (H l 0 (List.replicate n none) (by simp) hnd hl).1 k hk
  intro l
  induction l with
  | nil => intro s b _ _ _; simp
  | cons a t ih =>
    intro s b hb hnd hl
    rw [List.nodup_cons] at hnd
    rw [List.zipIdx_cons, List.foldl_cons]
    obtain ⟨h1, h2⟩ := ih (s + 1) (b.set a (some s)) (by simpa using hb) hnd.2 fun x hx => hl x (by simp [hx])
    constructor
    · intro k hk
      cases k with
      | zero =>
        rw [List.getElem_cons_zero, h2 a hnd.1]
        have := hl a (by simp)
        rw [List.getD_eq_getElem _ _ (by simpa [hb] using this)]
        simp
      | succ k =>
        rw [List.getElem_cons_succ, h1 k (by simpa using hk)]
        congr 1; omega
    · intro x hx
      rw [List.mem_cons, not_or] at hx
      rw [h2 x hx.2, List.getD_eq_getElem?_getD, List.getD_eq_getElem?_getD, List.getElem?_set_ne (fun h => hx.1 h.symm)]

section
variable {G : VGrp}

open Classical in
theorem subgroupToGroup_models (S : Finset Nat) (H : Subgroup G.Elem) (hH : G.Denotes S H) :
    ∃ K, subgroupToGroup G.g S = some K ∧ K.n = S.card ∧ K.conj = none ∧ K.isAbelian = none ∧ K.isSimple = none ∧
      Models K (fun k => if h : (S.sort (· ≤ ·)).getD k 0 < G.g.n then G.el _ h else (1 : G.Elem)) := by
  set sg := S.sort (· ≤ ·) with hsg
  have hnd : sg.Nodup := Finset.sort_nodup _ _
  have hmem : ∀ x, x ∈ sg ↔ x ∈ S := fun x => Finset.mem_sort _
  have hlen : sg.length = S.card := Finset.length_sort _
  set back : List (Option Nat) := sg.zipIdx.foldl (fun (l : List (Option Nat)) xi => l.set xi.1 (some xi.2)) (List.replicate G.g.n none) with hback
  have hb : ∀ x ∈ sg, back.getD x none = some (sg.idxOf x) := by
    intro x hx
    have := back_spec G.g.n sg hnd (fun y hy => hH.1 y ((hmem y).1 hy)) (sg.idxOf x) (List.idxOf_lt_length_of_mem hx)
    rwa [List.getElem_idxOf] at this
  have hone : G.g.ident ∈ sg := (hmem _).2 ((hH.2 1).2 H.one_mem)
  have hinv : ∀ x ∈ sg, G.g.i x ∈ sg := by
    intro x hx
    have hx' := (hmem x).1 hx
    exact (hmem _).2 ((hH.2 (G.el x (hH.1 x hx'))⁻¹).2 (H.inv_mem ((hH.2 _).1 hx')))
  have hmul : ∀ x ∈ sg, ∀ y ∈ sg, G.g.m x y ∈ sg := by
    intro x hx y hy
    have hx' := (hmem x).1 hx
    have hy' := (hmem y).1 hy
    exact (hmem _).2 ((hH.2 (G.el x (hH.1 x hx') * G.el y (hH.1 y hy'))).2 (H.mul_mem ((hH.2 _).1 hx') ((hH.2 _).1 hy')))
  refine ⟨{ n := S.card, ident := sg.idxOf G.g.ident, inv := sg.map fun x => sg.idxOf (G.g.i x), mul := sg.map fun x => sg.map fun y => sg.idxOf (G.g.m x y) },
    ?_, rfl, rfl, rfl, rfl, ?_⟩
  · unfold subgroupToGroup
    change (do
      let e ← back.getD G.g.ident none
      let iv ← sg.mapM fun x => back.getD (G.g.i x) none
      let ml ← sg.mapM fun x => sg.mapM fun y => back.getD (G.g.m x y) none
      some ({ n := S.card, ident := e, inv := iv, mul := ml } : Grp)) = _
    rw [hb _ hone, mapM_some_of' _ (fun x => sg.idxOf (G.g.i x)) _ (fun x hx => hb _ (hinv x hx)),
      mapM_some_of' _ (fun x => sg.map fun y => sg.idxOf (G.g.m x y)) _ (fun x hx =>
        mapM_some_of' _ _ _ fun y hy => hb _ (hmul x hx y hy))]
    rfl
  · have hgetlt : ∀ k, k < sg.length → sg.getD k 0 < G.g.n := by
      intro k hk
      rw [List.getD_eq_getElem _ _ hk]
      exact hH.1 _ ((hmem _).1 (List.getElem_mem hk))
    have hidx : ∀ x ∈ sg, sg.getD (sg.idxOf x) 0 = x := by
      intro x hx
      rw [List.getD_eq_getElem _ _ (List.idxOf_lt_length_of_mem hx), List.getElem_idxOf]
    have hI : ∀ x (hx : x < sg.length), Grp.i ({ n := S.card, ident := sg.idxOf G.g.ident, inv := sg.map fun x => sg.idxOf (G.g.i x), mul := sg.map fun x => sg.map fun y => sg.idxOf (G.g.m x y) } : Grp) x = sg.idxOf (G.g.i sg[x]) := by
      intro x hx
      change (sg.map fun x => sg.idxOf (G.g.i x)).getD x 0 = _
      rw [List.getD_eq_getElem _ _ (by simpa using hx)]; simp
    have hM : ∀ x y (hx : x < sg.length) (hy : y < sg.length),
        Grp.m ({ n := S.card, ident := sg.idxOf G.g.ident, inv := sg.map fun x => sg.idxOf (G.g.i x), mul := sg.map fun x => sg.map fun y => sg.idxOf (G.g.m x y) } : Grp) x y = sg.idxOf (G.g.m sg[x] sg[y]) := by
      intro x y hx hy
      change ((sg.map fun x => sg.map fun y => sg.idxOf (G.g.m x y)).getD x []).getD y 0 = _
      rw [List.getD_eq_getElem (l := List.map _ _) _ (by simpa using hx), List.getD_eq_getElem _ _ (by simpa using hy)]; simp
    constructor
    · intro x y hx hy h
      dsimp only at hx hy h
      rw [← hlen] at hx hy
      rw [dif_pos (hgetlt x hx), dif_pos (hgetlt y hy), ← idx_inj, idx_el, idx_el, List.getD_eq_getElem _ _ hx, List.getD_eq_getElem _ _ hy] at h
      exact hnd.getElem_inj_iff.1 h
    · dsimp only; rw [← hlen]; exact List.idxOf_lt_length_of_mem hone
    · dsimp only
      rw [dif_pos (hgetlt _ (List.idxOf_lt_length_of_mem hone))]
      exact Elem.ext (hidx _ hone)
    · simp [hlen]
    · simp [hlen]
    · intro r hr
      simp only [List.mem_map] at hr
      obtain ⟨x, -, rfl⟩ := hr
      simp [hlen]
    · intro x hx
      dsimp only at hx
      rw [← hlen] at hx
      rw [hI x hx, ← hlen]
      exact List.idxOf_lt_length_of_mem (hinv _ (List.getElem_mem hx))
    · intro x hx
      dsimp only at hx
      rw [← hlen] at hx
      rw [hI x hx, dif_pos (hgetlt _ (List.idxOf_lt_length_of_mem (hinv _ (List.getElem_mem hx)))), dif_pos (hgetlt x hx)]
      apply Elem.ext
      rw [idx_el, hidx _ (hinv _ (List.getElem_mem hx)), idx_inv, idx_el, List.getD_eq_getElem _ _ hx]
    · intro x y hx hy
      dsimp only at hx hy
      rw [← hlen] at hx hy
      rw [hM x y hx hy, ← hlen]
      exact List.idxOf_lt_length_of_mem (hmul _ (List.getElem_mem hx) _ (List.getElem_mem hy))
    · intro x y hx hy
      dsimp only at hx hy
      rw [← hlen] at hx hy
      have hxy := hmul _ (List.getElem_mem hx) _ (List.getElem_mem hy)
      rw [hM x y hx hy, dif_pos (hgetlt _ (List.idxOf_lt_length_of_mem hxy)), dif_pos (hgetlt x hx), dif_pos (hgetlt y hy)]
      apply Elem.ext
      rw [idx_el, hidx _ hxy, idx_mul, idx_el, idx_el, List.getD_eq_getElem _ _ hx, List.getD_eq_getElem _ _ hy]

end

end Verif.Table
