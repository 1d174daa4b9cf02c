import Verif.Proofs.ClassLoop
import Verif.Proofs.Bfs
import Mathlib.Algebra.Group.Subgroup.Basic
import Mathlib.Algebra.Group.Subgroup.Pointwise
import Mathlib.GroupTheory.Coset.Basic
import Mathlib.Data.Set.Finite.Basic
import Mathlib.Tactic.Group

/-! Generated subgroups, normal closures, conjugacy classes, cosets of composition tables. -/

namespace Verif.Table

open VGrp

/-- a finite set containing 1 and closed under right multiplication by `S` contains the subgroup generated by `S` -/
theorem closure_subset_of_right_closed {H : Type*} [Group H] (S P : Set H) (hfin : P.Finite) (h1 : (1 : H) ∈ P)
    (hcl : ∀ x ∈ P, ∀ g ∈ S, x * g ∈ P) : ∀ x ∈ Subgroup.closure S, x ∈ P := by
  have hinv : ∀ g ∈ S, ∀ x ∈ P, x * g⁻¹ ∈ P := by
    intro g hg x hx
    have hinj : Set.InjOn (fun y => y * g) P := fun a _ b _ h => mul_right_cancel h
    have hmap : Set.MapsTo (fun y => y * g) P P := fun y hy => hcl y hy g hg
    have := (hfin.surjOn_iff_bijOn_of_mapsTo hmap).2 ((hfin.injOn_iff_bijOn_of_mapsTo hmap).1 hinj)
    obtain ⟨y, hy, e⟩ := this hx
    simp only at e
    rw [← e, mul_inv_cancel_right]; exact hy
  intro x hx
  induction hx using Subgroup.closure_induction_right with
  | one => exact h1
  | mul_right x hx g hg ih => exact hcl x ih g hg
  | mul_inv_cancel x hx g hg ih => exact hinv g hg x ih

/-! ## Generated subgroups -/

section gen
variable {G : VGrp}

theorem reach_lt (next : Nat → List Nat) (h : ∀ x, x < G.g.n → ∀ y ∈ next x, y < G.g.n) (y : Nat)
    (hr : Reach next G.g.ident y) : y < G.g.n := by
  induction hr with
  | refl => exact G.ok.ident_lt
  | tail _ hs ih => exact h _ ih _ hs

theorem generatedSubgroup_spec (S : Finset Nat) (hS : ∀ x ∈ S, x < G.g.n) :
    ∃ R, generatedSubgroup G.g S = some (some R) ∧ G.Denotes R (Subgroup.closure (G.toSet S)) := by
  set next : Nat → List Nat := fun x => (S.sort (· ≤ ·)).map fun g => G.g.m x g with hnext
  have hmem : ∀ x y, y ∈ next x ↔ ∃ g ∈ S, G.g.m x g = y := by
    intro x y; simp [hnext]
  have hlt : ∀ x, x < G.g.n → ∀ y ∈ next x, y < G.g.n := by
    intro x hx y hy
    obtain ⟨g, hg, rfl⟩ := (hmem x y).1 hy
    exact G.ok.mul_lt _ _ hx (hS g hg)
  obtain ⟨R, hR⟩ := bfs_terminates next G.g.ident (Finset.range G.g.n) (Finset.mem_range.2 G.ok.ident_lt) (by
    intro x hx y hy; rw [Finset.mem_range] at hx ⊢; exact hlt x hx y hy)
  have hspec := bfs_spec next _ R hR
  refine ⟨R, ?_, ?_, ?_⟩
  · unfold generatedSubgroup
    rw [if_pos (by unfold subsetCheck; simpa using hS)]
    change (bfsLoop next {G.g.ident} [G.g.ident]).map some = _
    rw [hR]; rfl
  · intro x hx; exact reach_lt next hlt x ((hspec x).1 hx)
  · intro x
    rw [hspec]
    constructor
    · intro hr
      have : ∀ y, Reach next G.g.ident y → ∀ h : y < G.g.n, G.el y h ∈ Subgroup.closure (G.toSet S) := by
        intro y hr
        induction hr with
        | refl => intro h; exact Subgroup.one_mem _
        | @tail b c hb hs ih =>
          intro h
          obtain ⟨g, hg, rfl⟩ := (hmem b c).1 hs
          have hb' := reach_lt next hlt b hb
          have := ih hb'
          rw [← el_mul b g hb' (hS g hg)]
          exact Subgroup.mul_mem _ this (Subgroup.subset_closure (by simpa using hg))
      exact this _ hr (idx_lt x)
    · intro hx
      refine closure_subset_of_right_closed (G.toSet S) {x | Reach next G.g.ident x.idx} (Set.toFinite _) ?_ ?_ x hx
      · exact Relation.ReflTransGen.refl
      · intro y hy g hg
        exact Reach.tail' hy ((hmem _ _).2 ⟨g.idx, hg, rfl⟩)

end gen

/-! ## Conjugacy classes -/

/-- the conjugacy class computed by the code -/
def conjCls (G : Grp) (x : Nat) : Finset Nat := (Finset.range G.n).image fun g => G.m (G.m g x) (G.i g)

section conj
variable {G : VGrp}

theorem mem_conjCls (x : G.Elem) (y : Nat) : y ∈ conjCls G.g x.idx ↔ ∃ z : G.Elem, z.idx = y ∧ IsConj x z := by
  unfold conjCls
  simp only [Finset.mem_image, Finset.mem_range]
  constructor
  · rintro ⟨g, hg, rfl⟩
    exact ⟨G.el g hg * x * (G.el g hg)⁻¹, rfl, isConj_iff.2 ⟨_, rfl⟩⟩
  · rintro ⟨z, rfl, hz⟩
    obtain ⟨c, hc⟩ := isConj_iff.1 hz
    exact ⟨c.idx, idx_lt c, by rw [← hc]; rfl⟩

theorem mem_conjCls' (x y : G.Elem) : y.idx ∈ conjCls G.g x.idx ↔ IsConj x y := by
  rw [mem_conjCls]
  constructor
  · rintro ⟨z, h, hz⟩; rw [idx_inj] at h; subst h; exact hz
  · intro h; exact ⟨y, rfl, h⟩

theorem conjCls_self (x : Nat) (hx : x < G.g.n) : x ∈ conjCls G.g x :=
  (mem_conjCls' (G.el x hx) (G.el x hx)).2 (IsConj.refl _)

theorem conjCls_lt (x : Nat) (hx : x < G.g.n) (y : Nat) (hy : y ∈ conjCls G.g x) : y < G.g.n := by
  obtain ⟨z, rfl, -⟩ := (mem_conjCls (G.el x hx) y).1 hy
  exact idx_lt z

theorem conjCls_eq (x : Nat) (hx : x < G.g.n) (y : Nat) (hy : y ∈ conjCls G.g x) : conjCls G.g y = conjCls G.g x := by
  obtain ⟨z, rfl, hz⟩ := (mem_conjCls (G.el x hx) y).1 hy
  ext w
  rw [mem_conjCls z, show conjCls G.g x = conjCls G.g (G.el x hx).idx from rfl, mem_conjCls]
  exact ⟨fun ⟨v, h, hv⟩ => ⟨v, h, hz.trans hv⟩, fun ⟨v, h, hv⟩ => ⟨v, h, hz.symm.trans hv⟩⟩

theorem computeConj_spec (o : Oracle) : ∃ s, G.g.computeConj o = some s ∧ ClassesOf G.g.n (conjCls G.g) s :=
  classLoop_run o G.g.n (conjCls G.g) conjCls_self conjCls_lt conjCls_eq

/-- the cached conjugacy classes, if any, are right (as after `cache_conjugacy_classes`) -/
def CacheOk (G : Grp) : Prop := ∀ s, G.conj = some s → ClassesOf G.n (conjCls G) s

theorem conjClasses_spec (o : Oracle) (hc : CacheOk G.g) : ∃ s, G.g.conjClasses o = some s ∧ ClassesOf G.g.n (conjCls G.g) s := by
  unfold Grp.conjClasses
  rcases h : G.g.conj with _ | s
  · exact computeConj_spec o
  · exact ⟨s, rfl, hc s h⟩

/-! ## Normal closure -/

theorem normalClosure_spec (o : Oracle) (hc : CacheOk G.g) (S : Finset Nat) (hS : ∀ x ∈ S, x < G.g.n) :
    ∃ R, normalClosure G.g o S = some (some R) ∧ G.Denotes R (Subgroup.normalClosure (G.toSet S)) := by
  obtain ⟨s, hs1, hs2⟩ := conjClasses_spec o hc
  set next : Nat → List Nat := fun x => (S.sort (· ≤ ·)).flatMap fun g => (s.project (G.g.m x g)).sort (· ≤ ·) with hnext
  have hmem : ∀ x y, x < G.g.n → (y ∈ next x ↔ ∃ g ∈ S, y ∈ conjCls G.g (G.g.m x g)) := by
    intro x y hx
    simp only [hnext, List.mem_flatMap, Finset.mem_sort]
    constructor
    · rintro ⟨g, hg, hy⟩
      rw [hs2.proj _ (G.ok.mul_lt _ _ hx (hS g hg))] at hy
      exact ⟨g, hg, hy⟩
    · rintro ⟨g, hg, hy⟩
      exact ⟨g, hg, by rwa [hs2.proj _ (G.ok.mul_lt _ _ hx (hS g hg))]⟩
  have hlt : ∀ x, x < G.g.n → ∀ y ∈ next x, y < G.g.n := by
    intro x hx y hy
    obtain ⟨g, hg, h⟩ := (hmem x y hx).1 hy
    exact conjCls_lt _ (G.ok.mul_lt _ _ hx (hS g hg)) y h
  obtain ⟨R, hR⟩ := bfs_terminates next G.g.ident (Finset.range G.g.n) (Finset.mem_range.2 G.ok.ident_lt) (by
    intro x hx y hy; rw [Finset.mem_range] at hx ⊢; exact hlt x hx y hy)
  have hspec := bfs_spec next _ R hR
  have hstep : ∀ x y : G.Elem, y.idx ∈ next x.idx ↔ ∃ g : G.Elem, g.idx ∈ S ∧ IsConj (x * g) y := by
    intro x y
    rw [hmem _ _ (idx_lt x)]
    constructor
    · rintro ⟨g, hg, h⟩
      refine ⟨G.el g (hS g hg), hg, ?_⟩
      exact (mem_conjCls' (x * G.el g (hS g hg)) y).1 h
    · rintro ⟨g, hg, h⟩
      exact ⟨g.idx, hg, (mem_conjCls' (x * g) y).2 h⟩
  refine ⟨R, ?_, ?_, ?_⟩
  · unfold normalClosure
    rw [if_pos (by unfold subsetCheck; simpa using hS), hs1]
    change (bfsLoop next {G.g.ident} [G.g.ident]).bind (fun r => some (some r)) = _
    rw [hR]; rfl
  · intro x hx; exact reach_lt next hlt x ((hspec x).1 hx)
  · intro x
    rw [hspec]
    constructor
    · intro hr
      have : ∀ y, Reach next G.g.ident y → ∀ h : y < G.g.n, G.el y h ∈ Subgroup.normalClosure (G.toSet S) := by
        intro y hr
        induction hr with
        | refl => intro h; exact Subgroup.one_mem _
        | @tail b c hb hs' ih =>
          intro h
          have hb' := reach_lt next hlt b hb
          obtain ⟨g, hg, hconj⟩ := (hstep (G.el b hb') (G.el c h)).1 hs'
          have h1 := Subgroup.mul_mem _ (ih hb') (Subgroup.subset_normalClosure (show g ∈ G.toSet S from hg))
          obtain ⟨c', hc'⟩ := isConj_iff.1 hconj
          rw [← hc']
          exact Subgroup.normalClosure_normal.conj_mem _ h1 c'
      exact this _ hr (idx_lt x)
    · intro hx
      -- the reachable set is closed under conjugation
      have hconj : ∀ y : G.Elem, Reach next G.g.ident y.idx → ∀ z, IsConj y z → Reach next G.g.ident z.idx := by
        intro y hy z hz
        rcases Relation.ReflTransGen.cases_tail hy with h | ⟨b, hb, hby⟩
        · have : y = 1 := by rw [← idx_inj]; exact h
          subst this
          rw [isConj_one_right] at hz
          subst hz; exact hy
        · have hb' := reach_lt next hlt b hb
          obtain ⟨g, hg, hc'⟩ := (hstep (G.el b hb') y).1 hby
          exact Reach.tail' hb ((hstep (G.el b hb') z).2 ⟨g, hg, hc'.trans hz⟩)
      rw [Subgroup.normalClosure] at hx
      refine closure_subset_of_right_closed _ {x | Reach next G.g.ident x.idx} (Set.toFinite _) ?_ ?_ x hx
      · exact Relation.ReflTransGen.refl
      · intro y hy k hk
        rw [Group.mem_conjugatesOfSet_iff] at hk
        obtain ⟨g, hg, hgk⟩ := hk
        obtain ⟨c, rfl⟩ := isConj_iff.1 hgk
        have h1 : Reach next G.g.ident (c⁻¹ * y * c).idx := hconj y hy _ (isConj_iff.2 ⟨c⁻¹, by rw [inv_inv]⟩)
        have h2 := Reach.tail' h1 ((hstep (c⁻¹ * y * c) (y * (c * g * c⁻¹))).2 ⟨g, hg, isConj_iff.2 ⟨c, by group⟩⟩)
        exact h2

end conj

/-! ## Subgroup tests -/

section sub
variable {G : VGrp}

theorem isSubgroup_spec (S : Finset Nat) (hS : ∀ x ∈ S, x < G.g.n) (hne : S.Nonempty) :
    isSubgroup G.g S = true ↔ ∃ H : Subgroup G.Elem, G.Denotes S H := by
  unfold isSubgroup
  rw [decide_eq_true_iff]
  constructor
  · intro h
    -- contains 1 by finiteness
    obtain ⟨a, ha⟩ := hne
    have hcl : ∀ x : G.Elem, x.idx ∈ S → ∀ y : G.Elem, y.idx ∈ S → (x * y).idx ∈ S := fun x hx y hy => h _ hx _ hy
    have hpow : ∀ (x : G.Elem), x.idx ∈ S → ∀ k, (x ^ (k + 1)).idx ∈ S := by
      intro x hx k
      induction k with
      | zero => simpa using hx
      | succ k ih => rw [pow_succ]; exact hcl _ ih _ hx
    have h1 : (1 : G.Elem).idx ∈ S := by
      have := hpow (G.el a (hS a ha)) ha (orderOf (G.el a (hS a ha)) - 1)
      rwa [Nat.sub_add_cancel (orderOf_pos _), pow_orderOf_eq_one] at this
    refine ⟨{ carrier := {x | x.idx ∈ S}, mul_mem' := fun {x y} hx hy => hcl x hx y hy, one_mem' := h1, inv_mem' := ?_ }, hS, fun x => Iff.rfl⟩
    intro x hx
    have hx' : x.idx ∈ S := hx
    change (x⁻¹).idx ∈ S
    have e : x⁻¹ = x ^ (orderOf x - 1) := by
      rw [inv_eq_iff_mul_eq_one, ← pow_succ', Nat.sub_add_cancel (orderOf_pos x), pow_orderOf_eq_one]
    rw [e]
    rcases Nat.eq_zero_or_pos (orderOf x - 1) with h0 | h0
    · rw [h0, pow_zero]; exact h1
    · obtain ⟨k, hk⟩ : ∃ k, orderOf x - 1 = k + 1 := ⟨_, (Nat.sub_add_cancel h0).symm⟩
      rw [hk]; exact hpow x hx' k
  · rintro ⟨H, hlt, hH⟩ x hx y hy
    have := H.mul_mem ((hH (G.el x (hS x hx))).1 hx) ((hH (G.el y (hS y hy))).1 hy)
    exact (hH _).2 this

theorem isNormalSubgroup_spec (S : Finset Nat) (H : Subgroup G.Elem) (hH : G.Denotes S H) :
    isNormalSubgroup G.g S = true ↔ H.Normal := by
  unfold isNormalSubgroup
  rw [decide_eq_true_iff]
  constructor
  · intro h
    constructor
    intro n hn g
    exact (hH.2 _).1 (h n.idx ((hH.2 n).2 hn) g.idx (Finset.mem_range.2 (idx_lt g)))
  · intro h x hx g hg
    rw [Finset.mem_range] at hg
    have := h.conj_mem (G.el x (hH.1 x hx)) ((hH.2 _).1 hx) (G.el g hg)
    exact (hH.2 _).2 this

/-! ## Cosets -/

/-- the left coset computed by the code -/
def leftCls (G : Grp) (S : Finset Nat) (g : Nat) : Finset Nat := S.image fun h => G.m g h
/-- the right coset computed by the code -/
def rightCls (G : Grp) (S : Finset Nat) (g : Nat) : Finset Nat := S.image fun h => G.m h g

theorem mem_leftCls (S : Finset Nat) (H : Subgroup G.Elem) (hH : G.Denotes S H) (x : G.Elem) (y : Nat) :
    y ∈ leftCls G.g S x.idx ↔ ∃ z : G.Elem, z.idx = y ∧ x⁻¹ * z ∈ H := by
  unfold leftCls
  rw [Finset.mem_image]
  constructor
  · rintro ⟨h, hh, rfl⟩
    refine ⟨x * G.el h (hH.1 h hh), rfl, ?_⟩
    rw [inv_mul_cancel_left]
    exact (hH.2 _).1 hh
  · rintro ⟨z, rfl, hz⟩
    exact ⟨(x⁻¹ * z).idx, (hH.2 _).2 hz, by rw [← idx_mul, mul_inv_cancel_left]⟩

theorem mem_rightCls (S : Finset Nat) (H : Subgroup G.Elem) (hH : G.Denotes S H) (x : G.Elem) (y : Nat) :
    y ∈ rightCls G.g S x.idx ↔ ∃ z : G.Elem, z.idx = y ∧ z * x⁻¹ ∈ H := by
  unfold rightCls
  rw [Finset.mem_image]
  constructor
  · rintro ⟨h, hh, rfl⟩
    refine ⟨G.el h (hH.1 h hh) * x, rfl, ?_⟩
    rw [mul_inv_cancel_right]
    exact (hH.2 _).1 hh
  · rintro ⟨z, rfl, hz⟩
    exact ⟨(z * x⁻¹).idx, (hH.2 _).2 hz, by rw [← idx_mul, inv_mul_cancel_right]⟩

theorem leftCls_facts (S : Finset Nat) (H : Subgroup G.Elem) (hH : G.Denotes S H) :
    (∀ x, x < G.g.n → x ∈ leftCls G.g S x) ∧ (∀ x, x < G.g.n → ∀ y ∈ leftCls G.g S x, y < G.g.n) ∧
    (∀ x, x < G.g.n → ∀ y ∈ leftCls G.g S x, leftCls G.g S y = leftCls G.g S x) := by
  refine ⟨?_, ?_, ?_⟩
  · intro x hx
    exact (mem_leftCls S H hH (G.el x hx) x).2 ⟨G.el x hx, rfl, by simp [H.one_mem]⟩
  · intro x hx y hy
    obtain ⟨z, rfl, -⟩ := (mem_leftCls S H hH (G.el x hx) y).1 hy
    exact idx_lt z
  · intro x hx y hy
    obtain ⟨z, rfl, hz⟩ := (mem_leftCls S H hH (G.el x hx) y).1 hy
    ext w
    rw [mem_leftCls S H hH z, show leftCls G.g S x = leftCls G.g S (G.el x hx).idx from rfl, mem_leftCls S H hH]
    constructor
    · rintro ⟨v, h, hv⟩
      exact ⟨v, h, by have := H.mul_mem hz hv; rwa [mul_assoc, mul_inv_cancel_left] at this⟩
    · rintro ⟨v, h, hv⟩
      exact ⟨v, h, by have := H.mul_mem (H.inv_mem hz) hv; rwa [mul_inv_rev, inv_inv, mul_assoc, mul_inv_cancel_left] at this⟩

theorem rightCls_facts (S : Finset Nat) (H : Subgroup G.Elem) (hH : G.Denotes S H) :
    (∀ x, x < G.g.n → x ∈ rightCls G.g S x) ∧ (∀ x, x < G.g.n → ∀ y ∈ rightCls G.g S x, y < G.g.n) ∧
    (∀ x, x < G.g.n → ∀ y ∈ rightCls G.g S x, rightCls G.g S y = rightCls G.g S x) := by
  refine ⟨?_, ?_, ?_⟩
  · intro x hx
    exact (mem_rightCls S H hH (G.el x hx) x).2 ⟨G.el x hx, rfl, by simp [H.one_mem]⟩
  · intro x hx y hy
    obtain ⟨z, rfl, -⟩ := (mem_rightCls S H hH (G.el x hx) y).1 hy
    exact idx_lt z
  · intro x hx y hy
    obtain ⟨z, rfl, hz⟩ := (mem_rightCls S H hH (G.el x hx) y).1 hy
    ext w
    rw [mem_rightCls S H hH z, show rightCls G.g S x = rightCls G.g S (G.el x hx).idx from rfl, mem_rightCls S H hH]
    constructor
    · rintro ⟨v, h, hv⟩
      exact ⟨v, h, by have := H.mul_mem hv hz; rwa [mul_assoc, inv_mul_cancel_left] at this⟩
    · rintro ⟨v, h, hv⟩
      exact ⟨v, h, by have := H.mul_mem hv (H.inv_mem hz); rwa [mul_inv_rev, inv_inv, mul_assoc, inv_mul_cancel_left] at this⟩

theorem leftCosets_spec (o : Oracle) (S : Finset Nat) (H : Subgroup G.Elem) (hH : G.Denotes S H) :
    ∃ s, leftCosets G.g o S = some s ∧ ClassesOf G.g.n (leftCls G.g S) s :=
  let h := leftCls_facts S H hH
  classLoop_run o G.g.n (leftCls G.g S) h.1 h.2.1 h.2.2

theorem rightCosets_spec (o : Oracle) (S : Finset Nat) (H : Subgroup G.Elem) (hH : G.Denotes S H) :
    ∃ s, rightCosets G.g o S = some s ∧ ClassesOf G.g.n (rightCls G.g S) s :=
  let h := rightCls_facts S H hH
  classLoop_run o G.g.n (rightCls G.g S) h.1 h.2.1 h.2.2

theorem leftCls_card (S : Finset Nat) (H : Subgroup G.Elem) (hH : G.Denotes S H) (x : Nat) (hx : x < G.g.n) :
    (leftCls G.g S x).card = S.card := by
  apply Finset.card_image_of_injOn
  intro a ha b hb h
  have h' : G.el x hx * G.el a (hH.1 a ha) = G.el x hx * G.el b (hH.1 b hb) := Elem.ext h
  have := mul_left_cancel h'
  rw [← idx_inj] at this
  exact this

theorem rightCls_card (S : Finset Nat) (H : Subgroup G.Elem) (hH : G.Denotes S H) (x : Nat) (hx : x < G.g.n) :
    (rightCls G.g S x).card = S.card := by
  apply Finset.card_image_of_injOn
  intro a ha b hb h
  have h' : G.el a (hH.1 a ha) * G.el x hx = G.el b (hH.1 b hb) * G.el x hx := Elem.ext h
  have := mul_right_cancel h'
  rw [← idx_inj] at this
  exact this

end sub

end Verif.Table
