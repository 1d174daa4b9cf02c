import Verif.Proofs.TableQuot
import Mathlib.Data.Finset.Powerset

/-! All subgroups: the two-phase search with an abstract closure operator. -/

namespace Verif.Table

/-- `cl` computes the closure operator `C` on subsets of `{0..n-1}` -/
structure ClosureOp (n : Nat) (cl : Finset Nat → Option (Finset Nat)) (C : Finset Nat → Finset Nat) : Prop where
  run : ∀ S, (∀ x ∈ S, x < n) → cl S = some (C S)
  lt : ∀ S, (∀ x ∈ S, x < n) → ∀ x ∈ C S, x < n
  sub : ∀ S, (∀ x ∈ S, x < n) → S ⊆ C S
  mono : ∀ S T, (∀ x ∈ S, x < n) → (∀ x ∈ T, x < n) → S ⊆ C T → C S ⊆ C T

abbrev Pairs := List (Finset Nat × Finset Nat)

/-- entries are (closure of gens, gens), with distinct keys -/
structure Good (n : Nat) (C : Finset Nat → Finset Nat) (L : Pairs) : Prop where
  ok : ∀ p ∈ L, (∀ x ∈ p.2, x < n) ∧ C p.2 = p.1
  ne : ∀ p ∈ L, p.2.Nonempty
  nodup : (L.map Prod.fst).Nodup

theorem mapInsert_append (m : Pairs) (k v : Finset Nat) (h : k ∉ m.map Prod.fst) : mapInsert m k v = m ++ [(k, v)] := by
  unfold mapInsert; rw [if_neg h]

section
variable {n : Nat} {cl : Finset Nat → Option (Finset Nat)} {C : Finset Nat → Finset Nat} (hC : ClosureOp n cl C)
include hC

theorem Good.append {L : Pairs} (h : Good n C L) (g : Finset Nat) (hg : ∀ x ∈ g, x < n) (hne : g.Nonempty) (hk : C g ∉ L.map Prod.fst) :
    Good n C (L ++ [(C g, g)]) := by
  refine ⟨?_, ?_, ?_⟩
  · intro p hp
    rcases List.mem_append.1 hp with hp | hp
    · exact h.ok p hp
    · rw [List.mem_singleton] at hp; subst hp; exact ⟨hg, rfl⟩
  · intro p hp
    rcases List.mem_append.1 hp with hp | hp
    · exact h.ne p hp
    · rw [List.mem_singleton] at hp; subst hp; exact hne
  · rw [List.map_append, List.nodup_append]
    refine ⟨h.nodup, by simp, ?_⟩
    intro a ha b hb hab
    simp only [List.map_cons, List.map_nil, List.mem_singleton] at hb
    rw [hab, hb] at ha; exact hk ha

/-- closures of unions depend only on closures -/
theorem ClosureOp.insert_congr (d x : Nat) (g T : Finset Nat) (hd : d < n) (hx : x < n) (hg : ∀ x ∈ g, x < n) (hT : ∀ x ∈ T, x < n)
    (h1 : C {d} = C {x}) (h2 : C g = C T) : C (insert d g) = C (insert x T) := by
  have aux : ∀ (d x : Nat) (g T : Finset Nat), d < n → x < n → (∀ x ∈ g, x < n) → (∀ x ∈ T, x < n) → C {d} = C {x} → C g = C T →
      C (insert d g) ⊆ C (insert x T) := by
    intro d x g T hd hx hg hT h1 h2
    have hs : ∀ y ∈ ({x} : Finset Nat), y < n := by simpa using hx
    have hs' : ∀ y ∈ ({d} : Finset Nat), y < n := by simpa using hd
    have hi : ∀ y ∈ insert x T, y < n := by
      intro y hy; rcases Finset.mem_insert.1 hy with rfl | hy
      · exact hx
      · exact hT y hy
    have hi' : ∀ y ∈ insert d g, y < n := by
      intro y hy; rcases Finset.mem_insert.1 hy with rfl | hy
      · exact hd
      · exact hg y hy
    have hsub := hC.sub _ hi
    apply hC.mono _ _ hi' hi
    intro y hy
    rcases Finset.mem_insert.1 hy with rfl | hy
    · have a : y ∈ C {x} := by rw [← h1]; exact hC.sub _ hs' (by simp)
      exact hC.mono {x} (insert x T) hs hi (by intro z hz; rw [Finset.mem_singleton] at hz; subst hz; exact hsub (by simp)) a
    · have a : y ∈ C T := by rw [← h2]; exact hC.sub _ hg hy
      exact hC.mono T (insert x T) hT hi (fun z hz => hsub (by simp [hz])) a
  exact Finset.Subset.antisymm (aux d x g T hd hx hg hT h1 h2) (aux x d T g hx hd hT hg h1.symm h2.symm)

theorem cyclicPhase_spec : ∃ dg sub, cyclicPhase cl n = some (dg, sub) ∧ Good n C sub ∧ (∀ d ∈ dg, d < n) ∧
    (∀ x, x < n → C {x} ∈ sub.map Prod.fst ∧ ∃ d ∈ dg, C {d} = C {x}) := by
  unfold cyclicPhase
  suffices H : ∀ (l : List Nat) (dg : List Nat) (sub : Pairs), (∀ x ∈ l, x < n) → Good n C sub → (∀ d ∈ dg, d < n) →
      (∀ k ∈ sub.map Prod.fst, ∃ d ∈ dg, C {d} = k) →
      ∃ dg' sub', l.foldlM (fun (st : List Nat × Pairs) x => do
        let sg ← cl {x}
        if sg ∈ st.2.map Prod.fst then some st else some (st.1 ++ [x], mapInsert st.2 sg {x})) (dg, sub) = some (dg', sub') ∧
        Good n C sub' ∧ (∀ d ∈ dg', d < n) ∧ (∀ k ∈ sub'.map Prod.fst, ∃ d ∈ dg', C {d} = k) ∧
        (∀ k ∈ sub.map Prod.fst, k ∈ sub'.map Prod.fst) ∧ ∀ x ∈ l, C {x} ∈ sub'.map Prod.fst by
    obtain ⟨dg, sub, h1, h2, h3, h4, -, h6⟩ := H (List.range n) [] [] (by simp) ⟨by simp, by simp, by simp⟩ (by simp) (by simp)
    refine ⟨dg, sub, h1, h2, h3, ?_⟩
    intro x hx
    have := h6 x (List.mem_range.2 hx)
    exact ⟨this, h4 _ this⟩
  intro l
  induction l with
  | nil => intro dg sub _ hg hd hk; exact ⟨dg, sub, rfl, hg, hd, hk, fun _ h => h, by simp⟩
  | cons x t ih =>
    intro dg sub hl hg hd hk
    have hx := hl x (by simp)
    have hxs : ∀ y ∈ ({x} : Finset Nat), y < n := by simpa using hx
    rw [List.foldlM_cons, hC.run {x} hxs]
    simp only [Option.bind_eq_bind, Option.bind_some]
    by_cases hin : C {x} ∈ sub.map Prod.fst
    · rw [if_pos hin, Option.bind_some]
      obtain ⟨dg', sub', h1, h2, h3, h4, h5, h6⟩ := ih dg sub (fun y hy => hl y (by simp [hy])) hg hd hk
      refine ⟨dg', sub', h1, h2, h3, h4, h5, ?_⟩
      intro y hy
      rcases List.mem_cons.1 hy with rfl | hy
      · exact h5 _ hin
      · exact h6 y hy
    · rw [if_neg hin, Option.bind_some, mapInsert_append _ _ _ hin]
      obtain ⟨dg', sub', h1, h2, h3, h4, h5, h6⟩ := ih (dg ++ [x]) (sub ++ [(C {x}, {x})]) (fun y hy => hl y (by simp [hy]))
        (hg.append hC {x} hxs (by simp) hin)
        (by intro d hd'; rcases List.mem_append.1 hd' with h | h
            · exact hd d h
            · rw [List.mem_singleton] at h; subst h; exact hx)
        (by intro k hk'
            rw [List.map_append] at hk'
            rcases List.mem_append.1 hk' with h | h
            · obtain ⟨d, a, b⟩ := hk k h; exact ⟨d, by simp [a], b⟩
            · simp only [List.map_cons, List.map_nil, List.mem_singleton] at h; subst h; exact ⟨x, by simp, rfl⟩)
      refine ⟨dg', sub', h1, h2, h3, h4, fun k hk => h5 k (by rw [List.map_append]; exact List.mem_append_left _ hk), ?_⟩
      intro y hy
      rcases List.mem_cons.1 hy with rfl | hy
      · exact h5 _ (by simp)
      · exact h6 y hy

theorem extendStep_spec (sub0 : Pairs) (gens : Finset Nat) (hgens : ∀ x ∈ gens, x < n) (dg : List Nat) (hdg : ∀ d ∈ dg, d < n) :
    ∀ nb : Pairs, Good n C (sub0 ++ nb) → ∃ nb', extendStep cl dg gens (sub0 ++ nb, nb) = some (sub0 ++ (nb ++ nb'), nb ++ nb') ∧
      Good n C (sub0 ++ (nb ++ nb')) ∧ ∀ d ∈ dg, C (insert d gens) ∈ (sub0 ++ (nb ++ nb')).map Prod.fst := by
  unfold extendStep
  induction dg with
  | nil => intro nb h; exact ⟨[], by simp, by simpa using h, by simp⟩
  | cons d t ih =>
    intro nb h
    have hd := hdg d (by simp)
    have hins : ∀ x ∈ insert d gens, x < n := by
      intro y hy; rcases Finset.mem_insert.1 hy with rfl | hy
      · exact hd
      · exact hgens y hy
    rw [List.foldlM_cons, hC.run _ hins]
    simp only [Option.bind_eq_bind, Option.bind_some]
    by_cases hin : C (insert d gens) ∈ (sub0 ++ nb).map Prod.fst
    · rw [if_pos hin, Option.bind_some]
      obtain ⟨nb', h1, h2, h3⟩ := ih (fun x hx => hdg x (by simp [hx])) nb h
      refine ⟨nb', h1, h2, ?_⟩
      intro y hy
      rcases List.mem_cons.1 hy with rfl | hy
      · rw [List.map_append, List.map_append]
        rw [List.map_append] at hin
        rcases List.mem_append.1 hin with hh | hh
        · exact List.mem_append_left _ hh
        · exact List.mem_append_right _ (List.mem_append_left _ hh)
      · exact h3 y hy
    · rw [if_neg hin, Option.bind_some, mapInsert_append _ _ _ hin, mapInsert_append _ _ _ (fun hh => hin (by rw [List.map_append]; exact List.mem_append_right _ hh)),
        List.append_assoc]
      obtain ⟨nb', h1, h2, h3⟩ := ih (fun x hx => hdg x (by simp [hx])) (nb ++ [(C (insert d gens), insert d gens)]) (by
        rw [← List.append_assoc]; exact h.append hC _ hins (by simp) hin)
      refine ⟨(C (insert d gens), insert d gens) :: nb', ?_, ?_, ?_⟩
      · exact h1.trans (by simp)
      · simpa using h2
      · intro y hy
        rcases List.mem_cons.1 hy with rfl | hy
        · simp
        · have := h3 y hy
          simpa using this

theorem round_spec (sub0 : Pairs) (dg : List Nat) (hdg : ∀ d ∈ dg, d < n) (b : Pairs) (hb : ∀ p ∈ b, ∀ x ∈ p.2, x < n) :
    ∀ nb : Pairs, Good n C (sub0 ++ nb) → ∃ nb', b.foldlM (fun st p => extendStep cl dg p.2 st) (sub0 ++ nb, nb) = some (sub0 ++ (nb ++ nb'), nb ++ nb') ∧
      Good n C (sub0 ++ (nb ++ nb')) ∧ ∀ p ∈ b, ∀ d ∈ dg, C (insert d p.2) ∈ (sub0 ++ (nb ++ nb')).map Prod.fst := by
  induction b with
  | nil => intro nb h; exact ⟨[], by simp, by simpa using h, by simp⟩
  | cons p t ih =>
    intro nb h
    obtain ⟨nb1, h1, h2, h3⟩ := extendStep_spec hC sub0 p.2 (hb p (by simp)) dg hdg nb h
    rw [List.foldlM_cons, h1]
    obtain ⟨nb2, h4, h5, h6⟩ := ih (fun q hq => hb q (by simp [hq])) (nb ++ nb1) h2
    refine ⟨nb1 ++ nb2, ?_, ?_, ?_⟩
    · change List.foldlM _ (sub0 ++ (nb ++ nb1), nb ++ nb1) t = _
      rw [h4]; simp
    · simpa using h5
    · intro q hq d hd
      rcases List.mem_cons.1 hq with rfl | hq
      · have := h3 d hd
        rw [List.mem_map] at this ⊢
        obtain ⟨r, hr, e⟩ := this
        refine ⟨r, ?_, e⟩
        simp only [List.mem_append] at hr ⊢
        tauto
      · have := h6 q hq d hd
        simpa using this

theorem good_length {L : Pairs} (h : Good n C L) : L.length ≤ 2 ^ n := by
  have : (L.map Prod.fst).toFinset ⊆ (Finset.range n).powerset := by
    intro k hk
    rw [List.mem_toFinset, List.mem_map] at hk
    obtain ⟨p, hp, rfl⟩ := hk
    rw [Finset.mem_powerset]
    intro x hx
    rw [← (h.ok p hp).2] at hx
    exact Finset.mem_range.2 (hC.lt _ (h.ok p hp).1 x hx)
  have := Finset.card_le_card this
  rwa [List.toFinset_card_of_nodup h.nodup, Finset.card_powerset, Finset.card_range, List.length_map] at this

theorem subgroupsLoop_spec (ord : Order (Finset Nat × Finset Nat)) (dg : List Nat) (hdg : ∀ d ∈ dg, d < n) :
    ∀ (k step : Nat) (sub b : Pairs), 2 ^ n - sub.length < k → Good n C sub → (∀ p ∈ b, p ∈ sub) →
      (∀ p ∈ sub, p ∉ b → ∀ d ∈ dg, C (insert d p.2) ∈ sub.map Prod.fst) →
      ∃ r, subgroupsLoop ord cl dg step sub b = some r ∧ Good n C r ∧ (∀ p ∈ sub, p ∈ r) ∧
        ∀ p ∈ r, ∀ d ∈ dg, C (insert d p.2) ∈ r.map Prod.fst := by
  intro k
  induction k with
  | zero => intro step sub b h; omega
  | succ k ih =>
    intro step sub b hk hg hb hcl
    rw [subgroupsLoop]
    split
    · rename_i hnil
      subst hnil
      exact ⟨sub, rfl, hg, fun _ h => h, fun p hp => hcl p hp (by simp)⟩
    · have hperm := ord.perm step b
      obtain ⟨nb, h1, h2, h3⟩ := round_spec hC sub dg hdg (ord.arrange step b) (by
        intro p hp
        exact (hg.ok p (hb p (hperm.mem_iff.1 hp))).1) [] (by simpa using hg)
      simp only [List.append_nil, List.nil_append] at h1 h2 h3
      rw [h1]
      simp only [Option.bind_eq_bind, Option.bind_some]
      have hcl' : ∀ p ∈ sub ++ nb, p ∉ nb → ∀ d ∈ dg, C (insert d p.2) ∈ (sub ++ nb).map Prod.fst := by
        intro p hp hpn d hd
        have hps : p ∈ sub := by
          rcases List.mem_append.1 hp with h | h
          · exact h
          · exact absurd h hpn
        by_cases hpb : p ∈ b
        · exact h3 p (hperm.mem_iff.2 hpb) d hd
        · rw [List.map_append]; exact List.mem_append_left _ (hcl p hps hpb d hd)
      by_cases hnb : nb = []
      · subst hnb
        refine ⟨sub ++ [], ?_, h2, by simp, fun p hp => hcl' p hp (by simp)⟩
        rw [subgroupsLoop, if_pos rfl]
      · have hlen := good_length hC h2
        have hpos : 0 < nb.length := List.length_pos_iff.2 hnb
        rw [List.length_append] at hlen
        obtain ⟨r, r1, r2, r3, r4⟩ := ih (step + 1) (sub ++ nb) nb (by rw [List.length_append]; omega) h2 (fun p hp => List.mem_append_right _ hp) hcl'
        exact ⟨r, r1, r2, fun p hp => r3 p (List.mem_append_left _ hp), r4⟩

/-- The search finds the closure of every non-empty set, each once, with generators. -/
theorem subgroupsImpl_spec (ord : Order (Finset Nat × Finset Nat)) : ∃ r, subgroupsImpl ord cl n = some r ∧ Good n C r ∧
    ∀ T : Finset Nat, T.Nonempty → (∀ x ∈ T, x < n) → C T ∈ r.map Prod.fst := by
  obtain ⟨dg, sub, h1, h2, h3, h4⟩ := cyclicPhase_spec hC
  obtain ⟨r, r1, r2, r3, r4⟩ := subgroupsLoop_spec hC ord dg h3 _ 0 sub sub (Nat.lt_succ_self _) h2 (fun _ h => h) (fun p hp hn => absurd hp hn)
  refine ⟨r, ?_, r2, ?_⟩
  · unfold subgroupsImpl; rw [h1]; exact r1
  · intro T hT
    induction hT using Finset.Nonempty.cons_induction with
    | singleton a =>
      intro h
      obtain ⟨p, hp, e⟩ := List.mem_map.1 (h4 a (h a (by simp))).1
      exact List.mem_map.2 ⟨p, r3 p hp, e⟩
    | cons a s ha hs ih =>
      intro h
      obtain ⟨p, hp, e⟩ := List.mem_map.1 (ih fun x hx => h x (by simp [hx]))
      have han := h a (by simp)
      obtain ⟨d, hd, hda⟩ := (h4 a han).2
      have := r4 p hp d hd
      rw [hC.insert_congr d a p.2 s (h3 d hd) han (r2.ok p hp).1 (fun x hx => h x (by simp [hx])) hda (by rw [(r2.ok p hp).2, e])] at this
      rwa [Finset.cons_eq_insert]

end

/-! ## Instantiation -/

section
variable {G : VGrp}

open Classical in
/-- indices of a set of elements -/
noncomputable def idxSet (A : Set G.Elem) : Finset Nat := (Finset.univ.filter fun x : G.Elem => x ∈ A).image VGrp.Elem.idx

theorem mem_idxSet (A : Set G.Elem) (x : G.Elem) : x.idx ∈ idxSet A ↔ x ∈ A := by
  unfold idxSet
  simp only [Finset.mem_image, Finset.mem_filter, Finset.mem_univ, true_and]
  constructor
  · rintro ⟨y, hy, e⟩; rw [idx_inj] at e; subst e; exact hy
  · intro h; exact ⟨x, h, rfl⟩

theorem idxSet_lt (A : Set G.Elem) (k : Nat) (hk : k ∈ idxSet A) : k < G.g.n := by
  unfold idxSet at hk
  simp only [Finset.mem_image] at hk
  obtain ⟨y, -, rfl⟩ := hk
  exact idx_lt y

theorem denotes_idxSet (A : Set G.Elem) : G.Denotes (idxSet A) A := ⟨idxSet_lt A, mem_idxSet A⟩

theorem Denotes.unique {R : Finset Nat} {A : Set G.Elem} (h : G.Denotes R A) : R = idxSet A := by
  ext k
  constructor
  · intro hk
    have := (h.2 (G.el k (h.1 k hk))).1 hk
    exact (mem_idxSet A (G.el k (h.1 k hk))).2 this
  · intro hk
    have hlt := idxSet_lt A k hk
    have := (mem_idxSet A (G.el k hlt)).1 hk
    exact (h.2 (G.el k hlt)).2 this

theorem closureOp_of (cl : Finset Nat → Option (Finset Nat)) (D : Set G.Elem → Subgroup G.Elem)
    (hrun : ∀ S, (∀ x ∈ S, x < G.g.n) → ∃ R, cl S = some R ∧ G.Denotes R (D (G.toSet S)))
    (hsub : ∀ A : Set G.Elem, A ⊆ (D A : Set G.Elem)) (hmono : ∀ A B : Set G.Elem, A ⊆ (D B : Set G.Elem) → D A ≤ D B) :
    ClosureOp G.g.n cl (fun S => idxSet (D (G.toSet S) : Set G.Elem)) := by
  refine ⟨?_, ?_, ?_, ?_⟩
  · intro S hS
    obtain ⟨R, h1, h2⟩ := hrun S hS
    rw [h1, Denotes.unique h2]
  · intro S _ x hx; exact idxSet_lt _ x hx
  · intro S hS x hx
    exact (mem_idxSet _ (G.el x (hS x hx))).2 (hsub _ (show (G.el x (hS x hx)).idx ∈ S from hx))
  · intro S T hS hT h x hx
    have hlt := idxSet_lt _ x hx
    have := (mem_idxSet _ (G.el x hlt)).1 hx
    refine (mem_idxSet _ (G.el x hlt)).2 (hmono _ _ ?_ this)
    intro y hy
    exact (mem_idxSet _ y).1 (h hy)

theorem subgroups_closureOp : ClosureOp G.g.n (fun S => (generatedSubgroup G.g S).join) (fun S => idxSet (Subgroup.closure (G.toSet S) : Set G.Elem)) := by
  apply closureOp_of _ (fun A => Subgroup.closure A)
  · intro S hS
    obtain ⟨R, h1, h2⟩ := generatedSubgroup_spec S hS
    exact ⟨R, by simp [h1], h2⟩
  · intro A; exact Subgroup.subset_closure
  · intro A B h; exact (Subgroup.closure_le _).2 h

theorem normalSubgroups_closureOp (o : Oracle) (hc : CacheOk G.g) :
    ClosureOp G.g.n (fun S => (normalClosure G.g o S).join) (fun S => idxSet (Subgroup.normalClosure (G.toSet S) : Set G.Elem)) := by
  apply closureOp_of _ (fun A => Subgroup.normalClosure A)
  · intro S hS
    obtain ⟨R, h1, h2⟩ := normalClosure_spec o hc S hS
    exact ⟨R, by simp [h1], h2⟩
  · intro A; exact Subgroup.subset_normalClosure
  · intro A B h; exact Subgroup.normalClosure_le_normal h

end

end Verif.Table
