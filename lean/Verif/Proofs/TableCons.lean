import Verif.Proofs.Table
import Mathlib.Algebra.Group.Prod
import Mathlib.Data.ZMod.Basic

/-! Constructions of tables: each is a group because it is modelled on a Mathlib group. -/

namespace Verif.Table

/-- a table built by two nested maps over `0..n` -/
theorem m_of_map (G : Grp) (n : Nat) (F : Nat → Nat → Nat) (h : G.mul = (List.range n).map fun x => (List.range n).map fun y => F x y)
    (x y : Nat) (hx : x < n) (hy : y < n) : G.m x y = F x y := by
  unfold Grp.m
  rw [h, List.getD_eq_getElem (l := List.map _ _) _ (by simpa using hx)]
  rw [List.getD_eq_getElem _ _ (by simpa using hy)]
  simp

theorem i_of_map (G : Grp) (n : Nat) (F : Nat → Nat) (h : G.inv = (List.range n).map F) (x : Nat) (hx : x < n) : G.i x = F x := by
  unfold Grp.i
  rw [h, List.getD_eq_getElem _ _ (by simpa using hx)]
  simp

/-- The table `G` is modelled by the group `H` through the injection `f`. -/
structure Models {H : Type*} [Group H] (G : Grp) (f : Nat → H) : Prop where
  inj : ∀ x y, x < G.n → y < G.n → f x = f y → x = y
  ident_lt : G.ident < G.n
  ident : f G.ident = 1
  inv_len : G.inv.length = G.n
  mul_len : G.mul.length = G.n
  row_len : ∀ r ∈ G.mul, r.length = G.n
  inv_lt : ∀ x, x < G.n → G.i x < G.n
  inv : ∀ x, x < G.n → f (G.i x) = (f x)⁻¹
  mul_lt : ∀ x y, x < G.n → y < G.n → G.m x y < G.n
  mul : ∀ x y, x < G.n → y < G.n → f (G.m x y) = f x * f y

theorem Models.isGroup {H : Type*} [Group H] {G : Grp} {f : Nat → H} (h : Models G f) : IsGroup G where
  ident_lt := h.ident_lt
  inv_len := h.inv_len
  mul_len := h.mul_len
  row_len := h.row_len
  inv_lt := h.inv_lt
  mul_lt := h.mul_lt
  mul_one x hx := h.inj _ _ (h.mul_lt _ _ hx h.ident_lt) hx (by rw [h.mul _ _ hx h.ident_lt, h.ident, mul_one])
  one_mul x hx := h.inj _ _ (h.mul_lt _ _ h.ident_lt hx) hx (by rw [h.mul _ _ h.ident_lt hx, h.ident, one_mul])
  inv_mul x hx := h.inj _ _ (h.mul_lt _ _ (h.inv_lt x hx) hx) h.ident_lt (by
    rw [h.mul _ _ (h.inv_lt x hx) hx, h.ident, h.inv x hx, inv_mul_cancel])
  mul_inv x hx := h.inj _ _ (h.mul_lt _ _ hx (h.inv_lt x hx)) h.ident_lt (by
    rw [h.mul _ _ hx (h.inv_lt x hx), h.ident, h.inv x hx, mul_inv_cancel])
  assoc x y z hx hy hz := h.inj _ _ (h.mul_lt _ _ hx (h.mul_lt _ _ hy hz)) (h.mul_lt _ _ (h.mul_lt _ _ hx hy) hz) (by
    rw [h.mul _ _ hx (h.mul_lt _ _ hy hz), h.mul _ _ hy hz, h.mul _ _ (h.mul_lt _ _ hx hy) hz, h.mul _ _ hx hy, mul_assoc])

/-- the homomorphism to the modelling group -/
def Models.hom {H : Type*} [Group H] {G : Grp} {f : Nat → H} (h : Models G f) : (VGrp.mk G h.isGroup).Elem →* H where
  toFun x := f x.idx
  map_one' := h.ident
  map_mul' x y := h.mul _ _ (idx_lt x) (idx_lt y)

theorem Models.hom_injective {H : Type*} [Group H] {G : Grp} {f : Nat → H} (h : Models G f) : Function.Injective h.hom :=
  fun x y e => Elem.ext (h.inj _ _ (idx_lt x) (idx_lt y) e)

/-- the isomorphism when every element is hit -/
noncomputable def Models.equiv {H : Type*} [Group H] {G : Grp} {f : Nat → H} (h : Models G f) (hs : ∀ y, ∃ x, x < G.n ∧ f x = y) :
    (VGrp.mk G h.isGroup).Elem ≃* H :=
  MulEquiv.ofBijective h.hom ⟨h.hom_injective, fun y => by
    obtain ⟨x, hx, e⟩ := hs y
    exact ⟨VGrp.el (VGrp.mk G h.isGroup) x hx, e⟩⟩

/-! ## Direct products -/

theorem pair_lt {i j m n : Nat} (hi : i < m) (hj : j < n) : i + j * m < m * n := by
  have : (j + 1) * m ≤ n * m := Nat.mul_le_mul_right _ hj
  rw [Nat.add_mul, Nat.one_mul] at this
  rw [Nat.mul_comm m n]; omega

theorem pair_mod {i j m : Nat} (hi : i < m) : (i + j * m) % m = i := by
  rw [Nat.add_mul_mod_self_right, Nat.mod_eq_of_lt hi]

theorem pair_div {i j m : Nat} (hi : i < m) : (i + j * m) / m = j := by
  rw [Nat.add_mul_div_right _ _ (by omega), Nat.div_eq_of_lt hi, Nat.zero_add]

open Classical in
/-- decoding of the index pairing `i + j*m` -/
noncomputable def prodDecode (A B : VGrp) (x : Nat) : A.Elem × B.Elem :=
  if h : x % A.g.n < A.g.n ∧ x / A.g.n < B.g.n then (A.el _ h.1, B.el _ h.2) else 1

theorem prodDecode_idx (A B : VGrp) (x : Nat) (hx : x < A.g.n * B.g.n) :
    (prodDecode A B x).1.idx = x % A.g.n ∧ (prodDecode A B x).2.idx = x / A.g.n := by
  have h : x % A.g.n < A.g.n ∧ x / A.g.n < B.g.n := ⟨Nat.mod_lt _ n_pos, Nat.div_lt_of_lt_mul hx⟩
  unfold prodDecode
  rw [dif_pos h]
  exact ⟨rfl, rfl⟩

theorem directProduct_models (A B : VGrp) : Models (directProduct A.g B.g) (prodDecode A B) := by
  have hn : (directProduct A.g B.g).n = A.g.n * B.g.n := rfl
  have hdm : ∀ x, x < A.g.n * B.g.n → x % A.g.n < A.g.n ∧ x / A.g.n < B.g.n :=
    fun x hx => ⟨Nat.mod_lt _ n_pos, Nat.div_lt_of_lt_mul hx⟩
  have hi : ∀ x, x < A.g.n * B.g.n → (directProduct A.g B.g).i x = A.g.i (x % A.g.n) + B.g.i (x / A.g.n) * A.g.n :=
    fun x hx => i_of_map (directProduct A.g B.g) _ (fun x => A.g.i (x % A.g.n) + B.g.i (x / A.g.n) * A.g.n) rfl x hx
  have hm : ∀ x y, x < A.g.n * B.g.n → y < A.g.n * B.g.n → (directProduct A.g B.g).m x y =
      A.g.m (x % A.g.n) (y % A.g.n) + B.g.m (x / A.g.n) (y / A.g.n) * A.g.n := fun x y hx hy => m_of_map (directProduct A.g B.g) _
      (fun x y => A.g.m (x % A.g.n) (y % A.g.n) + B.g.m (x / A.g.n) (y / A.g.n) * A.g.n) rfl x y hx hy
  have hilt : ∀ x, x < A.g.n * B.g.n → (directProduct A.g B.g).i x < A.g.n * B.g.n := by
    intro x hx
    rw [hi x hx]
    exact pair_lt (A.ok.inv_lt _ (hdm x hx).1) (B.ok.inv_lt _ (hdm x hx).2)
  have hmlt : ∀ x y, x < A.g.n * B.g.n → y < A.g.n * B.g.n → (directProduct A.g B.g).m x y < A.g.n * B.g.n := by
    intro x y hx hy
    rw [hm x y hx hy]
    exact pair_lt (A.ok.mul_lt _ _ (hdm x hx).1 (hdm y hy).1) (B.ok.mul_lt _ _ (hdm x hx).2 (hdm y hy).2)
  constructor
  · intro x y hx hy h
    obtain ⟨a1, a2⟩ := prodDecode_idx A B x hx
    obtain ⟨b1, b2⟩ := prodDecode_idx A B y hy
    rw [h, b1] at a1
    rw [h, b2] at a2
    rw [← Nat.mod_add_div x A.g.n, ← Nat.mod_add_div y A.g.n, a1, a2]
  · exact pair_lt A.ok.ident_lt B.ok.ident_lt
  · have hlt : A.g.ident + B.g.ident * A.g.n < A.g.n * B.g.n := pair_lt A.ok.ident_lt B.ok.ident_lt
    obtain ⟨a1, a2⟩ := prodDecode_idx A B _ hlt
    rw [pair_mod A.ok.ident_lt] at a1
    rw [pair_div A.ok.ident_lt] at a2
    exact Prod.ext (Elem.ext a1) (Elem.ext a2)
  · simp [directProduct]
  · simp [directProduct]
  · intro r hr
    simp only [directProduct, List.mem_map] at hr
    obtain ⟨x, -, rfl⟩ := hr
    simp [directProduct]
  · exact hilt
  · intro x hx
    obtain ⟨a1, a2⟩ := prodDecode_idx A B x hx
    obtain ⟨b1, b2⟩ := prodDecode_idx A B _ (hilt x hx)
    rw [hi x hx] at b1 b2 ⊢
    rw [pair_mod (A.ok.inv_lt _ (hdm x hx).1)] at b1
    rw [pair_div (A.ok.inv_lt _ (hdm x hx).1)] at b2
    refine Prod.ext (Elem.ext ?_) (Elem.ext ?_)
    · rw [b1, Prod.fst_inv, idx_inv, a1]
    · rw [b2, Prod.snd_inv, idx_inv, a2]
  · exact hmlt
  · intro x y hx hy
    obtain ⟨a1, a2⟩ := prodDecode_idx A B x hx
    obtain ⟨c1, c2⟩ := prodDecode_idx A B y hy
    obtain ⟨b1, b2⟩ := prodDecode_idx A B _ (hmlt x y hx hy)
    rw [hm x y hx hy] at b1 b2 ⊢
    rw [pair_mod (A.ok.mul_lt _ _ (hdm x hx).1 (hdm y hy).1)] at b1
    rw [pair_div (A.ok.mul_lt _ _ (hdm x hx).1 (hdm y hy).1)] at b2
    refine Prod.ext (Elem.ext ?_) (Elem.ext ?_)
    · rw [b1, Prod.fst_mul, idx_mul, a1, c1]
    · rw [b2, Prod.snd_mul, idx_mul, a2, c2]

/-! ## `from_raw_model` -/

/-- the index map of `from_raw_model` -/
def rawIdx {T : Type} [DecidableEq T] (elems : List T) : T → Option Nat :=
  elems.zipIdx.foldl (fun f (xi : T × Nat) => fun t => if t = xi.1 then some xi.2 else f t) (fun _ => none)

theorem rawIdx_getElem {T : Type} [DecidableEq T] (elems : List T) (hnd : elems.Nodup) (k : Nat) (hk : k < elems.length) :
    rawIdx elems elems[k] = some k := by
  unfold rawIdx
  suffices H : ∀ (l : List T) (s : Nat) (f : T → Option Nat), l.Nodup → ∀ k (hk : k < l.length),
      (l.zipIdx s).foldl (fun f (xi : T × Nat) => fun t => if t = xi.1 then some xi.2 else f t) f l[k] = some (s + k) by
    simpa using H elems 0 _ hnd k hk
  intro l
  induction l with
  | nil => intro s f _ k hk; simp at hk
  | cons x t ih =>
    intro s f hnd k hk
    rw [List.zipIdx_cons, List.foldl_cons]
    have hnot : ∀ (l : List T) (s : Nat) (f : T → Option Nat) (y : T), y ∉ l →
        (l.zipIdx s).foldl (fun f (xi : T × Nat) => fun t => if t = xi.1 then some xi.2 else f t) f y = f y := by
      intro l
      induction l with
      | nil => intro s f y _; rfl
      | cons a l ih =>
        intro s f y hy
        rw [List.zipIdx_cons, List.foldl_cons, ih _ _ _ (fun h => hy (by simp [h]))]
        exact if_neg fun h => hy (by simp [h])
    cases k with
    | zero =>
      rw [List.getElem_cons_zero, hnot _ _ _ _ (List.nodup_cons.1 hnd).1]
      simp
    | succ k =>
      rw [List.getElem_cons_succ, ih (s + 1) _ (List.nodup_cons.1 hnd).2]
      congr 1; omega

theorem mapM_some_of' {α β : Type} (f : α → Option β) (g : α → β) (l : List α) (h : ∀ x ∈ l, f x = some (g x)) :
    l.mapM f = some (l.map g) := by
  induction l with
  | nil => rfl
  | cons x t ih =>
    rw [List.mapM_cons, h x (by simp), ih fun y hy => h y (by simp [hy])]; rfl

/-- A list of distinct elements of a group closed under the operations gives a table modelled on that group. -/
theorem fromRaw_models {T : Type} [DecidableEq T] {H : Type*} [Group H] (elems : List T) (hnd : elems.Nodup) (φ : T → H)
    (hinj : ∀ a ∈ elems, ∀ b ∈ elems, φ a = φ b → a = b)
    (ident : T) (inv : T → T) (mul : T → T → T) (he : ident ∈ elems) (hi : ∀ x ∈ elems, inv x ∈ elems) (hm : ∀ x ∈ elems, ∀ y ∈ elems, mul x y ∈ elems)
    (pe : φ ident = 1) (pi : ∀ x ∈ elems, φ (inv x) = (φ x)⁻¹) (pm : ∀ x ∈ elems, ∀ y ∈ elems, φ (mul x y) = φ x * φ y) (a b : Option Bool) :
    ∃ G, Grp.fromRaw elems ident inv mul a b = some G ∧ G.n = elems.length ∧ G.isAbelian = a ∧ G.isSimple = b ∧ G.conj = none ∧
      Models G (fun k => (elems[k]?.map φ).getD 1) := by
  have hidx : ∀ t ∈ elems, rawIdx elems t = some (elems.idxOf t) := by
    intro t ht
    have hl := List.idxOf_lt_length_of_mem ht
    have := rawIdx_getElem elems hnd (elems.idxOf t) hl
    rwa [List.getElem_idxOf] at this
  refine ⟨{ n := elems.length, ident := elems.idxOf ident, inv := elems.map fun x => elems.idxOf (inv x), 
            mul := elems.map fun x => elems.map fun y => elems.idxOf (mul x y), isAbelian := a, isSimple := b }, ?_, rfl, rfl, rfl, rfl, ?_⟩
  · unfold Grp.fromRaw
    change (do
      let e ← rawIdx elems ident
      let iv ← elems.mapM fun x => rawIdx elems (inv x)
      let ml ← elems.mapM fun x => elems.mapM fun y => rawIdx elems (mul x y)
      some ({ n := elems.length, ident := e, inv := iv, mul := ml, isAbelian := a, isSimple := b } : Grp)) = _
    rw [hidx _ he, mapM_some_of' _ (fun x => elems.idxOf (inv x)) _ (fun x hx => hidx _ (hi x hx)),
      mapM_some_of' _ (fun x => elems.map fun y => elems.idxOf (mul x y)) _ (fun x hx =>
        mapM_some_of' _ _ _ fun y hy => hidx _ (hm x hx y hy))]
    rfl
  · have hget : ∀ t ∈ elems, elems[elems.idxOf t]? = some t := by
      intro t ht
      rw [List.getElem?_eq_getElem (List.idxOf_lt_length_of_mem ht), List.getElem_idxOf]
    have hI : ∀ x (hx : x < elems.length), (elems.map fun x => elems.idxOf (inv x)).getD x 0 = elems.idxOf (inv elems[x]) := by
      intro x hx
      rw [List.getD_eq_getElem _ _ (by simpa using hx)]; simp
    have hM : ∀ x y (hx : x < elems.length) (hy : y < elems.length),
        ((elems.map fun x => elems.map fun y => elems.idxOf (mul x y)).getD x []).getD y 0 = elems.idxOf (mul elems[x] elems[y]) := by
      intro x y hx hy
      rw [List.getD_eq_getElem (l := List.map _ _) _ (by simpa using hx), List.getD_eq_getElem _ _ (by simpa using hy)]; simp
    constructor
    · intro x y hx hy h
      dsimp only at hx hy
      simp only [List.getElem?_eq_getElem hx, List.getElem?_eq_getElem hy, Option.map_some, Option.getD_some] at h
      exact hnd.getElem_inj_iff.1 (hinj _ (List.getElem_mem hx) _ (List.getElem_mem hy) h)
    · exact List.idxOf_lt_length_of_mem he
    · simp [hget _ he, pe]
    · simp
    · simp
    · intro r hr
      simp only [List.mem_map] at hr
      obtain ⟨x, -, rfl⟩ := hr
      simp
    · intro x hx
      dsimp only at hx
      unfold Grp.i
      rw [hI x hx]
      exact List.idxOf_lt_length_of_mem (hi _ (List.getElem_mem hx))
    · intro x hx
      dsimp only at hx
      unfold Grp.i
      rw [hI x hx, hget _ (hi _ (List.getElem_mem hx)), List.getElem?_eq_getElem hx]
      exact pi _ (List.getElem_mem hx)
    · intro x y hx hy
      dsimp only at hx hy
      unfold Grp.m
      rw [hM x y hx hy]
      exact List.idxOf_lt_length_of_mem (hm _ (List.getElem_mem hx) _ (List.getElem_mem hy))
    · intro x y hx hy
      dsimp only at hx hy
      unfold Grp.m
      rw [hM x y hx hy, hget _ (hm _ (List.getElem_mem hx) _ (List.getElem_mem hy)), List.getElem?_eq_getElem hx, List.getElem?_eq_getElem hy]
      exact pm _ (List.getElem_mem hx) _ (List.getElem_mem hy)

/-! ## Cyclic groups -/

theorem cyclic_models (n : Nat) (hn : 1 ≤ n) : ∃ G, cyclic n = some G ∧ G.n = n ∧ G.isAbelian = some true ∧ G.isSimple = none ∧ G.conj = none ∧
    Models G (fun k => Multiplicative.ofAdd ((if k < n then k else 0 : Nat) : ZMod n)) := by
  have hmod : ∀ x, x % n ∈ List.range n := fun x => List.mem_range.2 (Nat.mod_lt _ hn)
  obtain ⟨G, h1, h2, h3, h4, h5, h6⟩ := fromRaw_models (H := Multiplicative (ZMod n)) (List.range n) List.nodup_range
    (fun k => Multiplicative.ofAdd (k : ZMod n)) (by
      intro a ha b hb h
      rw [List.mem_range] at ha hb
      have h' : (a : ZMod n) = b := h
      rw [ZMod.natCast_eq_natCast_iff'] at h'
      rwa [Nat.mod_eq_of_lt ha, Nat.mod_eq_of_lt hb] at h') 0 (fun x => (n - x) % n) (fun x y => (x + y) % n)
      (List.mem_range.2 hn) (fun _ _ => hmod _) (fun _ _ _ _ => hmod _) (by simp) (by
        intro x hx
        rw [List.mem_range] at hx
        rw [← ofAdd_neg, ZMod.natCast_mod, Nat.cast_sub hx.le, ZMod.natCast_self, zero_sub]) (by
        intro x _ y _
        rw [ZMod.natCast_mod, Nat.cast_add, ofAdd_add]) (some true) none
  refine ⟨G, h1, by simpa using h2, h3, h4, h5, ?_⟩
  convert h6 using 2 with k
  by_cases hk : k < n
  · rw [if_pos hk, List.getElem?_range hk]; rfl
  · rw [if_neg hk, List.getElem?_eq_none (by simpa using hk)]; simp

end Verif.Table
