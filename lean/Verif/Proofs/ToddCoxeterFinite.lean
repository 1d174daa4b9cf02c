import Verif.Proofs.ToddCoxeterGroup
import Mathlib.Algebra.Group.Opposite

namespace Verif.ToddCoxeter

open Verif.Perm Verif.Table

/-- Equivariance extends from the generators to the whole group. -/
theorem equivariant {n m : Nat} {rels : List (List Nat)} {X : Type*} [MulAction (PresGroup n rels) X]
    (φ : PresGroup n rels →* Equiv.Perm (Fin m)) (f : Fin m → X)
    (hf : ∀ g i, f (φ (PresGroup.gen g) i) = (PresGroup.gen g : PresGroup n rels) • f i) :
    ∀ k i, f (φ k i) = k • f i := by
  apply pres_induction
  · intro i; simp
  · intro g x ih i
    rw [map_mul, Equiv.Perm.mul_apply, hf, ih, mul_smul]
  · intro g x ih i
    rw [map_mul, Equiv.Perm.mul_apply, mul_smul, eq_inv_smul_iff, ← hf, map_inv]
    simp [ih]

/-- The coset map is injective when the returned permutations satisfy the relations, the subgroup generators fix `0`
and the action is transitive. -/
theorem coset_map_injective {n m : Nat} {rels subs : List (List Nat)} (f : Fin m → PresGroup n rels ⧸ PresGroup.sub (n := n) rels subs)
    (σ : Fin n → Equiv.Perm (Fin m)) (z : Fin m) (hz : f z = ((1 : PresGroup n rels) : _ ⧸ _))
    (hf : ∀ g i, f (σ g i) = (PresGroup.gen g : PresGroup n rels) • f i)
    (hr : ∀ w ∈ rels, wordVal σ w = 1) (hs : ∀ w ∈ subs, wordVal σ w z = z)
    (ht : ∀ i, ∃ k ∈ Subgroup.closure (Set.range σ), k z = i) : Function.Injective f := by
  obtain ⟨φ, hφ⟩ := exists_lift σ hr
  have heq := equivariant φ f (fun g i => by rw [hφ]; exact hf g i)
  have hstab : ∀ x ∈ PresGroup.sub (n := n) rels subs, φ x z = z := by
    intro x hx
    have : PresGroup.sub (n := n) rels subs ≤ (MulAction.stabilizer (Equiv.Perm (Fin m)) z).comap φ := by
      unfold PresGroup.sub
      rw [Subgroup.closure_le]
      rintro y ⟨w, hw, rfl⟩
      change φ (wordVal PresGroup.gen w) • z = z
      rw [map_wordVal]
      simp only [hφ]
      exact hs w hw
    exact this hx
  have hrange : ∀ k ∈ Subgroup.closure (Set.range σ), ∃ x, φ x = k := by
    intro k hk
    have : Subgroup.closure (Set.range σ) ≤ φ.range := by
      rw [Subgroup.closure_le]
      rintro _ ⟨g, rfl⟩
      exact ⟨PresGroup.gen g, hφ g⟩
    exact this hk
  intro i j hij
  obtain ⟨ki, hki, rfl⟩ := ht i
  obtain ⟨kj, hkj, rfl⟩ := ht j
  obtain ⟨x, rfl⟩ := hrange _ hki
  obtain ⟨y, rfl⟩ := hrange _ hkj
  rw [heq, heq, hz] at hij
  rw [show x • ((1 : PresGroup n rels) : _ ⧸ PresGroup.sub (n := n) rels subs) = ((x * 1 : PresGroup n rels) : _ ⧸ _) from rfl,
    show y • ((1 : PresGroup n rels) : _ ⧸ PresGroup.sub (n := n) rels subs) = ((y * 1 : PresGroup n rels) : _ ⧸ _) from rfl,
    mul_one, mul_one, QuotientGroup.eq] at hij
  have := hstab _ hij
  rw [map_mul, map_inv, Equiv.Perm.mul_apply] at this
  calc φ x z = φ x ((φ x)⁻¹ (φ y z)) := by rw [this]
    _ = φ y z := by simp

/-! ## paths -/

theorem applyPath_append (perms : List (List Nat)) (z : Nat) (u v : List Nat) :
    applyPath perms z (u ++ v) = (applyPath perms z u).bind fun y => applyPath perms y v := by
  unfold applyPath
  rw [List.foldlM_append]
  rfl

theorem applyPath_nil (perms : List (List Nat)) (z : Nat) : applyPath perms z [] = some z := rfl

theorem applyPath_cons (perms : List (List Nat)) (z g : Nat) (v : List Nat) :
    applyPath perms z (g :: v) = (perms[g]?).bind fun p => applyPath perms (call p z) v := by
  unfold applyPath
  rw [List.foldlM_cons]
  cases perms[g]? <;> rfl

/-- every recorded path leads from `0` to its element -/
def PathsOk (m : Nat) (perms : List (List Nat)) (paths : List (Option (List Nat))) : Prop :=
  paths.length = m ∧ ∀ (i : Nat) (w : List Nat), paths[i]? = some (some w) → applyPath perms 0 w = some i

theorem pathStep_ok {m : Nat} {perms : List (List Nat)} {b : Nat} {path : List Nat} {st st' : List (Option (List Nat)) × List Nat} {g : Nat}
    (hb : applyPath perms 0 path = some b) (hst : PathsOk m perms st.1) (h : pathStep perms b path st g = some st') :
    PathsOk m perms st'.1 := by
  unfold pathStep at h
  split at h
  · cases h
  · rename_i p hp
    split at h
    · cases h
    · cases h; exact hst
    · rename_i hn
      cases h
      refine ⟨by simp [hst.1], ?_⟩
      intro i w hw
      simp only at hw
      rw [List.getElem?_set] at hw
      split at hw
      · rename_i hi
        subst hi
        split at hw
        · cases hw
          rw [applyPath_append, hb, Option.bind_some, applyPath_cons, hp, Option.bind_some, applyPath_nil]
        · cases hw
      · exact hst.2 i w hw

theorem pathElem_ok {m n : Nat} {perms : List (List Nat)} {b : Nat} {st st' : List (Option (List Nat)) × List Nat}
    (hst : PathsOk m perms st.1) (h : pathElem n perms st b = some st') : PathsOk m perms st'.1 := by
  unfold pathElem at h
  split at h
  · rename_i path hp
    have hb := hst.2 _ _ hp
    exact foldlM_option_inv _ (fun st => PathsOk m perms st.1) _ (fun s g s' _ h1 h2 => pathStep_ok hb h1 h2) _ _ hst h
  · cases h

theorem pathLoop_ok {m n : Nat} {perms : List (List Nat)} :
    ∀ paths bd r, pathLoop n perms paths bd = some r → PathsOk m perms paths → PathsOk m perms r := by
  apply pathLoop.partial_correctness n perms (motive := fun paths bd r => PathsOk m perms paths → PathsOk m perms r)
  intro f ih paths bd r h hp
  split at h
  · cases h; exact hp
  · obtain ⟨⟨p', nb⟩, h1, h2⟩ := Option.bind_eq_some_iff.1 h
    refine ih _ _ _ h2 ?_
    exact foldlM_option_inv _ (fun st => PathsOk m perms st.1) _ (fun s g s' _ h1 h2 => pathElem_ok h1 h2) _ _ hp h1

/-- What `finiteGroupOf` returns, in terms of paths from `0` to every element. -/
theorem finiteGroupOf_spec {n m : Nat} {perms : List (List Nat)} {G : Grp} (h : finiteGroupOf n m perms = some G) :
    ∃ (ip : List (List Nat)) (paths : List (List Nat)), perms.mapM Permutation.inverse = some ip ∧ paths.length = m ∧
      (∀ i, i < m → applyPath perms 0 (paths.getD i []) = some i) ∧ G.n = m ∧ G.ident = 0 ∧
      G.inv.length = m ∧ G.mul.length = m ∧ (∀ r ∈ G.mul, r.length = m) ∧
      (∀ x, x < m → applyPath ip 0 (paths.getD x []).reverse = some (G.i x)) ∧
      ∀ x y, x < m → y < m → applyPath perms x (paths.getD y []) = some (G.m x y) := by
  unfold finiteGroupOf at h
  obtain ⟨ip, hip, h⟩ := Option.bind_eq_some_iff.1 h
  obtain ⟨ps, hps, h⟩ := Option.bind_eq_some_iff.1 h
  obtain ⟨paths, hpaths, h⟩ := Option.bind_eq_some_iff.1 h
  obtain ⟨inv, hinv, h⟩ := Option.bind_eq_some_iff.1 h
  obtain ⟨mul, hmul, h⟩ := Option.bind_eq_some_iff.1 h
  cases h
  have hok : PathsOk m perms ps := by
    refine pathLoop_ok _ _ _ hps ⟨by simp, ?_⟩
    intro i w hw
    rw [List.getElem?_map] at hw
    obtain ⟨j, hj, hw2⟩ := Option.map_eq_some_iff.1 hw
    clear hw
    have hij : j = i := by
      obtain ⟨hj1, hj2⟩ := List.getElem?_eq_some_iff.1 hj
      rw [List.getElem_range] at hj2
      exact hj2.symm
    subst hij
    by_cases h0 : j = 0
    · subst h0
      simp only [if_true, Option.some.injEq] at hw2
      subst hw2
      rfl
    · simp [h0] at hw2
  obtain ⟨hl1, hs1⟩ := (mapM_option_spec _ _).1 _ hpaths
  obtain ⟨hl2, hs2⟩ := (mapM_option_spec _ _).1 _ hinv
  obtain ⟨hl3, hs3⟩ := (mapM_option_spec _ _).1 _ hmul
  have hpath : ∀ i, i < m → applyPath perms 0 (paths.getD i []) = some i := by
    intro i hi
    have hi' : i < ps.length := by rw [hok.1]; exact hi
    obtain ⟨b, hb, hb2⟩ := hs1 i _ (List.getElem?_eq_getElem hi')
    rw [List.getD_eq_getElem?_getD, hb]
    refine hok.2 i b ?_
    rw [List.getElem?_eq_getElem hi']
    exact congrArg some hb2
  refine ⟨ip, paths, hip, by rw [hl1, hok.1], hpath, rfl, rfl, by simpa using hl2, by simpa using hl3, ?_, ?_, ?_⟩
  · intro r hr
    obtain ⟨x, hx⟩ := List.mem_iff_getElem?.1 hr
    have hxm : x < m := by
      have := (List.getElem?_eq_some_iff.1 hx).1
      rw [hl3, List.length_range] at this
      exact this
    obtain ⟨b, hb, hb2⟩ := hs3 x x (List.getElem?_range hxm)
    have : r = b := by
      have := hx.symm.trans hb
      simpa using this
    subst this
    simpa using ((mapM_option_spec _ _).1 _ hb2).1
  · intro x hx
    obtain ⟨b, hb, hb2⟩ := hs2 x x (List.getElem?_range hx)
    simp only [Grp.i, List.getD_eq_getElem?_getD, hb, Option.getD_some]
    simpa [List.getD_eq_getElem?_getD] using hb2
  · intro x y hx hy
    obtain ⟨row, hrow, hrow2⟩ := hs3 x x (List.getElem?_range hx)
    obtain ⟨b, hb, hb2⟩ := ((mapM_option_spec _ _).1 _ hrow2).2 y y (List.getElem?_range hy)
    rw [hpath x hx] at hb2
    simp only [Grp.m, List.getD_eq_getElem?_getD, hrow, Option.getD_some, hb]
    simpa [List.getD_eq_getElem?_getD] using hb2

/-- the product of the generators along a path (the last letter is the outermost factor) -/
def pathVal {K : Type*} [Group K] (γ : Nat → K) (w : List Nat) : K := (w.reverse.map γ).prod

theorem applyPath_val {K : Type*} [Group K] (γ : Nat → K) (F : Nat → K) {m : Nat} {perms : List (List Nat)}
    (hlt : ∀ p ∈ perms, ∀ i, i < m → call p i < m)
    (hF : ∀ (g : Nat) (p : List Nat), perms[g]? = some p → ∀ i, i < m → F (call p i) = γ g * F i) (w : List Nat) :
    ∀ z y, z < m → applyPath perms z w = some y → y < m ∧ F y = pathVal γ w * F z := by
  induction w with
  | nil => intro z y hz h; cases h; exact ⟨hz, by simp [pathVal]⟩
  | cons g t ih =>
    intro z y hz h
    rw [applyPath_cons] at h
    obtain ⟨p, hp, h⟩ := Option.bind_eq_some_iff.1 h
    obtain ⟨h1, h2⟩ := ih _ _ (hlt p (List.mem_of_getElem? hp) z hz) h
    refine ⟨h1, ?_⟩
    rw [h2, hF g p hp z hz]
    simp [pathVal, mul_assoc]

/-- If the enumerated points are labelled injectively by the elements of a group `K` on which the permutations act by left
multiplication, the table is the opposite of `K`. -/
theorem finiteGroupOf_models {K : Type*} [Group K] (γ : Nat → K) (F : Nat → K) {n m : Nat} {perms : List (List Nat)} {G : Grp}
    (hm : 0 < m) (hp : ∀ p ∈ perms, IsPermList p ∧ p.length ≤ m) (h0 : F 0 = 1)
    (hF : ∀ (g : Nat) (p : List Nat), perms[g]? = some p → ∀ i, i < m → F (call p i) = γ g * F i)
    (hinj : ∀ i j, i < m → j < m → F i = F j → i = j) (h : finiteGroupOf n m perms = some G) :
    Models G (fun i => MulOpposite.op (F i)) ∧ G.n = m := by
  obtain ⟨ip, paths, hip, hpl, hpath, e1, e2, e3, e4, e5, e6, e7⟩ := finiteGroupOf_spec h
  have hlt : ∀ p ∈ perms, ∀ i, i < m → call p i < m := fun p hpm i hi => call_lt p (hp p hpm).1 m i (hp p hpm).2 hi
  have hinvspec : ∀ p, IsPermList p → ∃ q, Permutation.inverse p = some q ∧ IsPermList q ∧ q.length ≤ p.length ∧
      (∀ x, call q (call p x) = x) ∧ ∀ x, call p (call q x) = x := by
    intro p hpp
    obtain ⟨r, e1, e2, e3, e4, e5⟩ := inverseRaw_spec p hpp
    refine ⟨reduced r, ?_, reduced_perm _ e3, ?_, ?_, ?_⟩
    · unfold Permutation.inverse; rw [e1]; rfl
    · exact (reduced_length_le r).trans e2.le
    · intro x; rw [call_reduced]; exact e4 x
    · intro x; rw [call_reduced]; exact e5 x
  obtain ⟨hil, his⟩ := (mapM_option_spec _ _).1 _ hip
  have hipg : ∀ (g : Nat) (q : List Nat), ip[g]? = some q → ∃ p, perms[g]? = some p ∧ Permutation.inverse p = some q := by
    intro g q hq
    have hgl : g < perms.length := by
      have := (List.getElem?_eq_some_iff.1 hq).1
      omega
    obtain ⟨b, hb, hb2⟩ := his g _ (List.getElem?_eq_getElem hgl)
    rw [hq] at hb
    cases hb
    exact ⟨_, List.getElem?_eq_getElem hgl, hb2⟩
  have hilt : ∀ q ∈ ip, ∀ i, i < m → call q i < m := by
    intro q hq i hi
    obtain ⟨g, hg⟩ := List.mem_iff_getElem?.1 hq
    obtain ⟨p, hpg, hpq⟩ := hipg g q hg
    obtain ⟨hp1, hp2⟩ := hp p (List.mem_of_getElem? hpg)
    obtain ⟨q', e1, e2, e3, -, -⟩ := hinvspec p hp1
    rw [hpq] at e1
    cases e1
    exact call_lt _ e2 m i (e3.trans hp2) hi
  have hiF : ∀ (g : Nat) (q : List Nat), ip[g]? = some q → ∀ i, i < m → F (call q i) = (γ g)⁻¹ * F i := by
    intro g q hg i hi
    obtain ⟨p, hpg, hpq⟩ := hipg g q hg
    obtain ⟨hp1, hp2⟩ := hp p (List.mem_of_getElem? hpg)
    obtain ⟨q', e1, e2, e3, e4, e5⟩ := hinvspec p hp1
    rw [hpq] at e1
    cases e1
    have := hF g p hpg (call q i) (hilt q (List.mem_of_getElem? hg) i hi)
    rw [e5] at this
    rw [this, inv_mul_cancel_left]
  have hv : ∀ i, i < m → F i = pathVal γ (paths.getD i []) := by
    intro i hi
    have := (applyPath_val γ F hlt hF _ _ _ hm (hpath i hi)).2
    rw [this, h0, mul_one]
  have hrev : ∀ w : List Nat, pathVal (fun g => (γ g)⁻¹) w.reverse = (pathVal γ w)⁻¹ := by
    intro w
    unfold pathVal
    rw [List.reverse_reverse, List.prod_inv_reverse, List.map_reverse, List.map_reverse, List.reverse_reverse, List.map_map]
    rfl
  refine ⟨⟨?_, ?_, ?_, ?_, ?_, ?_, ?_, ?_, ?_, ?_⟩, e1⟩
  · intro x y hx hy hxy
    rw [e1] at hx hy
    exact hinj x y hx hy (MulOpposite.op_injective hxy)
  · rw [e1, e2]; exact hm
  · simp [e2, h0]
  · rw [e1, e3]
  · rw [e1, e4]
  · intro r hr; rw [e1]; exact e5 r hr
  · intro x hx
    rw [e1] at hx ⊢
    exact (applyPath_val _ F hilt hiF _ _ _ hm (e6 x hx)).1
  · intro x hx
    rw [e1] at hx
    rw [(applyPath_val _ F hilt hiF _ _ _ hm (e6 x hx)).2, hrev, h0, mul_one, ← hv x hx, MulOpposite.op_inv]
  · intro x y hx hy
    rw [e1] at hx hy ⊢
    exact (applyPath_val γ F hlt hF _ _ _ hx (e7 x y hx hy)).1
  · intro x y hx hy
    rw [e1] at hx hy
    rw [(applyPath_val γ F hlt hF _ _ _ hx (e7 x y hx hy)).2, ← hv y hy, MulOpposite.op_mul]

end Verif.ToddCoxeter
