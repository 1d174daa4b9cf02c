import Verif.Spec.Table
import Mathlib.Data.Fintype.Card
import Mathlib.Data.List.GetD
import Mathlib.GroupTheory.OrderOfElement

/-! Basic lemmas about composition tables. -/

namespace Verif.Table

open VGrp

section basic
variable {G : VGrp}

theorem idx_lt (x : G.Elem) : x.idx < G.g.n := Fin.isLt x

@[ext] theorem Elem.ext {x y : G.Elem} (h : x.idx = y.idx) : x = y := Fin.ext h

theorem idx_inj {x y : G.Elem} : x.idx = y.idx ↔ x = y := ⟨Elem.ext, fun h => h ▸ rfl⟩

@[simp] theorem idx_el (x : Nat) (h : x < G.g.n) : (G.el x h).idx = x := rfl

@[simp] theorem el_idx (x : G.Elem) : G.el x.idx (idx_lt x) = x := rfl

@[simp] theorem idx_mul (x y : G.Elem) : (x * y).idx = G.g.m x.idx y.idx := rfl

@[simp] theorem idx_one : (1 : G.Elem).idx = G.g.ident := rfl

@[simp] theorem idx_inv (x : G.Elem) : (x⁻¹).idx = G.g.i x.idx := rfl

theorem el_mul (x y : Nat) (hx : x < G.g.n) (hy : y < G.g.n) :
    G.el x hx * G.el y hy = G.el (G.g.m x y) (G.ok.mul_lt _ _ hx hy) := rfl

theorem card_elem : Fintype.card G.Elem = G.g.n := Fintype.card_fin _

@[simp] theorem mem_toSet (S : Finset Nat) (x : G.Elem) : x ∈ G.toSet S ↔ x.idx ∈ S := Iff.rfl

theorem n_pos : 0 < G.g.n := lt_of_le_of_lt (Nat.zero_le _) G.ok.ident_lt

end basic

/-- in-range bounds checks never fail -/
theorem mul?_eq (G : Grp) (hl : G.mul.length = G.n) (hr : ∀ r ∈ G.mul, r.length = G.n) (x y : Nat) (hx : x < G.n) (hy : y < G.n) :
    G.mul? x y = some (G.m x y) := by
  unfold Grp.mul? Grp.m
  have hx' : x < G.mul.length := by omega
  rw [List.getElem?_eq_getElem hx', List.getD_eq_getElem _ _ hx']
  have hy' : y < (G.mul[x]).length := by rw [hr _ (List.getElem_mem hx')]; exact hy
  rw [List.getD_eq_getElem _ _ hy']
  simp [List.getElem?_eq_getElem hy']

theorem inv?_eq (G : Grp) (hl : G.inv.length = G.n) (x : Nat) (hx : x < G.n) : G.inv? x = some (G.i x) := by
  unfold Grp.inv? Grp.i
  have hx' : x < G.inv.length := by omega
  rw [List.getElem?_eq_getElem hx', List.getD_eq_getElem _ _ hx']

theorem thenO_some (a : Bool) (b : Option Bool) : thenO (some a) b = if a then b else some false := by
  cases a <;> rfl

theorem allO_some {α : Type} (l : List α) (f : α → Option Bool) (g : α → Bool) (h : ∀ x ∈ l, f x = some (g x)) :
    allO l f = some (l.all g) := by
  induction l with
  | nil => rfl
  | cons x t ih =>
    rw [allO, h x (by simp), List.all_cons]
    rcases g x with _ | _
    · rfl
    · simp [ih fun y hy => h y (by simp [hy])]

theorem thenO_if {a : Bool} {p : Prop} (ha : a = true ↔ p) {b : Option Bool} {q : Prop}
    (hb : p → ∃ v, b = some v ∧ (v = true ↔ q)) : ∃ v, thenO (some a) b = some v ∧ (v = true ↔ p ∧ q) := by
  cases a with
  | false => exact ⟨false, rfl, by simp at ha ⊢; tauto⟩
  | true =>
    obtain ⟨v, h1, h2⟩ := hb (ha.1 rfl)
    exact ⟨v, h1, by rw [h2]; simp at ha; tauto⟩

theorem checkCore_spec (G : Grp) : ∃ v, G.checkCore = some v ∧ (v = true ↔ IsGroup G) := by
  unfold Grp.checkCore
  have key : ∃ v, G.checkCore = some v ∧ (v = true ↔
      (G.ident < G.n ∧ G.inv.length = G.n ∧ (∀ x ∈ G.inv, x < G.n) ∧ G.mul.length = G.n ∧
      (∀ m ∈ G.mul, m.length = G.n ∧ ∀ x ∈ m, x < G.n) ∧
      (∀ x ∈ List.range G.n, x = G.m x G.ident ∧ x = G.m G.ident x) ∧
      (∀ x ∈ List.range G.n, G.ident = G.m (G.i x) x ∧ G.ident = G.m x (G.i x)) ∧
      (∀ x ∈ List.range G.n, ∀ y ∈ List.range G.n, ∀ z ∈ List.range G.n, G.m x (G.m y z) = G.m (G.m x y) z))) := by
    unfold Grp.checkCore
    apply thenO_if (by simp)
    intro h1
    apply thenO_if (by simp)
    intro h2
    rw [allO_some _ _ (fun x => decide (x < G.n)) (fun _ _ => rfl)]
    apply thenO_if (by simp)
    intro h3
    apply thenO_if (by simp)
    intro h4
    rw [allO_some _ _ (fun m => decide (m.length = G.n) && m.all fun x => decide (x < G.n)) (by
      intro m _
      rw [thenO_some, allO_some _ _ (fun x => decide (x < G.n)) (fun _ _ => rfl)]
      by_cases h : m.length = G.n <;> simp [h])]
    apply thenO_if (by simp)
    intro h5
    have hm : ∀ x y, x < G.n → y < G.n → G.mul? x y = some (G.m x y) := mul?_eq G h4 (fun r hr => (h5 r hr).1)
    have hi : ∀ x, x < G.n → G.inv? x = some (G.i x) := inv?_eq G h2
    have hmlt : ∀ x y, x < G.n → y < G.n → G.m x y < G.n := by
      intro x y hx hy
      have hx' : x < G.mul.length := by omega
      unfold Grp.m
      rw [List.getD_eq_getElem _ _ hx']
      have hr := h5 _ (List.getElem_mem hx')
      rw [List.getD_eq_getElem _ _ (by omega)]
      exact hr.2 _ (List.getElem_mem _)
    have hilt : ∀ x, x < G.n → G.i x < G.n := by
      intro x hx
      unfold Grp.i
      rw [List.getD_eq_getElem _ _ (by omega)]
      exact h3 _ (List.getElem_mem _)
    rw [allO_some _ _ (fun x => x == G.m x G.ident && x == G.m G.ident x) (by
      intro x hx
      rw [List.mem_range] at hx
      rw [hm x _ hx h1, hm _ x h1 hx]
      simp only [eqO, thenO_some]
      rcases (x == G.m x G.ident) <;> simp)]
    apply thenO_if (by simp)
    intro h6
    rw [allO_some _ _ (fun x => G.ident == G.m (G.i x) x && G.ident == G.m x (G.i x)) (by
      intro x hx
      rw [List.mem_range] at hx
      rw [hi x hx]
      simp only [Option.bind_eq_bind, Option.bind_some]
      rw [hm _ x (hilt x hx) hx, hm x _ hx (hilt x hx)]
      simp only [eqO, thenO_some]
      rcases (G.ident == G.m (G.i x) x) <;> simp)]
    apply thenO_if (by simp)
    intro h7
    rw [allO_some _ _ (fun x => (List.range G.n).all fun y => (List.range G.n).all fun z => G.m x (G.m y z) == G.m (G.m x y) z) (by
      intro x hx
      apply allO_some
      intro y hy
      apply allO_some
      intro z hz
      rw [List.mem_range] at hx hy hz
      rw [hm y z hy hz, hm x y hx hy]
      simp only [Option.bind_eq_bind, Option.bind_some]
      rw [hm x _ hx (hmlt y z hy hz), hm _ z (hmlt x y hx hy) hz]
      rfl)]
    exact ⟨_, rfl, by simp⟩
  obtain ⟨v, h1, h2⟩ := key
  refine ⟨v, h1, h2.trans ?_⟩
  constructor
  · rintro ⟨a1, a2, a3, a4, a5, a6, a7, a8⟩
    simp only [List.mem_range] at a6 a7 a8
    refine ⟨a1, a2, a4, fun r hr => (a5 r hr).1, ?_, ?_, fun x hx => (a6 x hx).1.symm, fun x hx => (a6 x hx).2.symm,
      fun x hx => (a7 x hx).1.symm, fun x hx => (a7 x hx).2.symm, fun x y z hx hy hz => a8 x hx y hy z hz⟩
    · intro x hx
      unfold Grp.i
      rw [List.getD_eq_getElem _ _ (by omega)]
      exact a3 _ (List.getElem_mem _)
    · intro x y hx hy
      have hx' : x < G.mul.length := by omega
      unfold Grp.m
      rw [List.getD_eq_getElem _ _ hx']
      have hr := a5 _ (List.getElem_mem hx')
      rw [List.getD_eq_getElem _ _ (by omega)]
      exact hr.2 _ (List.getElem_mem _)
  · intro h
    refine ⟨h.ident_lt, h.inv_len, ?_, h.mul_len, ?_, ?_, ?_, ?_⟩
    · intro x hx
      obtain ⟨k, hk, rfl⟩ := List.getElem_of_mem hx
      have := h.inv_lt k (by rw [← h.inv_len]; exact hk)
      unfold Grp.i at this
      rwa [List.getD_eq_getElem _ _ hk] at this
    · intro r hr
      refine ⟨h.row_len r hr, ?_⟩
      intro x hx
      obtain ⟨a, ha, rfl⟩ := List.getElem_of_mem hr
      obtain ⟨b, hb, rfl⟩ := List.getElem_of_mem hx
      have := h.mul_lt a b (by rw [← h.mul_len]; exact ha) (by rw [← h.row_len _ hr]; exact hb)
      unfold Grp.m at this
      rwa [List.getD_eq_getElem _ _ ha, List.getD_eq_getElem _ _ hb] at this
    · intro x hx; rw [List.mem_range] at hx; exact ⟨(h.mul_one x hx).symm, (h.one_mul x hx).symm⟩
    · intro x hx; rw [List.mem_range] at hx; exact ⟨(h.inv_mul x hx).symm, (h.mul_inv x hx).symm⟩
    · intro x hx y hy z hz
      rw [List.mem_range] at hx hy hz
      exact h.assoc x y z hx hy hz

/-! ## order -/

theorem orderLoop_spec {G : VGrp} (x : G.Elem) : ∀ k ord, ord + k = orderOf x → 1 ≤ ord →
    G.g.orderLoop x.idx (x ^ ord).idx ord = some (orderOf x) := by
  intro k
  induction k with
  | zero =>
    intro ord h _
    rw [Grp.orderLoop, if_pos]
    · simp at h; rw [h]
    · rw [← idx_one (G := G), idx_inj, show ord = orderOf x by omega, pow_orderOf_eq_one]
  | succ k ih =>
    intro ord h h1
    rw [Grp.orderLoop, if_neg]
    · have := ih (ord + 1) (by omega) (by omega)
      rw [pow_succ' x ord, idx_mul] at this
      exact this
    · rw [← idx_one (G := G), idx_inj]
      intro hp
      have := orderOf_dvd_of_pow_eq_one hp
      have := Nat.le_of_dvd (by omega) this
      omega

theorem order_spec {G : VGrp} (x : G.Elem) : G.g.order x.idx = some (some (orderOf x)) := by
  have hpos : 0 < orderOf x := orderOf_pos x
  have := orderLoop_spec x (orderOf x - 1) 1 (by omega) (le_refl _)
  rw [pow_one] at this
  unfold Grp.order
  rw [if_pos (idx_lt x), this]
  rfl

/-! ## abelian -/

theorem computeIsAbelian_spec (G : VGrp) : G.g.computeIsAbelian = true ↔ ∀ x y : G.Elem, x * y = y * x := by
  unfold Grp.computeIsAbelian
  simp only [List.all_eq_true, List.mem_range, beq_iff_eq]
  constructor
  · intro h x y
    apply Elem.ext
    rw [idx_mul, idx_mul]
    rcases lt_trichotomy y.idx x.idx with hlt | heq | hgt
    · exact h _ (idx_lt x) _ hlt
    · rw [heq]
    · exact (h _ (idx_lt y) _ hgt).symm
  · intro h x hx y hy
    have := h (G.el x hx) (G.el y (by omega))
    rw [← idx_inj] at this
    exact this

/-! ## mul_many -/

theorem mulMany_spec {G : VGrp} (l : List G.Elem) : G.g.mulMany (l.map VGrp.Elem.idx) = (l.prod).idx := by
  cases l with
  | nil => rfl
  | cons x t =>
    rw [List.map_cons, Grp.mulMany, List.prod_cons]
    induction t generalizing x with
    | nil => simp
    | cons y t ih =>
      rw [List.map_cons, List.foldl_cons, ← idx_mul, ih, List.prod_cons, mul_assoc]

end Verif.Table
