import Verif.Proofs.GolayComplete

/-!
# Labelling a sextet: the octads that meet one foursome in three points
-/

namespace Verif.Golay
open Finset

/-- six foursomes, indexed -/
structure Six (C : Finset (Finset Pt)) (T : Fin 6 → Finset Pt) : Prop where
  four : ∀ i, (T i).card = 4
  disj : ∀ i j, i ≠ j → Disjoint (T i) (T j)
  code : ∀ i j, i ≠ j → T i ∪ T j ∈ C
  cover : ∀ p, ∃ i, p ∈ T i

theorem six_of {C : Submodule (ZMod 2) (Fin 24 → ZMod 2)} {T : Fin 6 → Finset Pt} (h : IsSextet C T) : Six (famOf C) T := by
  refine ⟨h.four, h.disjoint, fun i j e => mem_famOf.2 (h.codeword i j e), fun p => ?_⟩
  have hcov := (sextet_iff.1 h).cover
  have : p ∈ (List.ofFn T).foldr (· ∪ ·) ∅ := by rw [hcov]; exact mem_univ _
  obtain ⟨t, ht, hp⟩ := mem_foldr.1 this
  obtain ⟨i, rfl⟩ := (List.mem_ofFn' T t).1 ht
  exact ⟨i, hp⟩

variable {C : Finset (Finset Pt)} {T : Fin 6 → Finset Pt}

theorem Six.eq_col (hs : Six C T) {p : Pt} {i j : Fin 6} (hi : p ∈ T i) (hj : p ∈ T j) : i = j := by
  by_contra hne
  exact disjoint_left.1 (hs.disj i j hne) hi hj

theorem Six.sum (hs : Six C T) (u : Finset Pt) : u.card = ∑ i, (u ∩ T i).card := by
  rw [← card_biUnion]
  · congr 1
    ext p
    simp only [mem_biUnion, mem_univ, true_and, mem_inter]
    constructor
    · intro hp
      obtain ⟨i, hi⟩ := hs.cover p
      exact ⟨i, hp, hi⟩
    · rintro ⟨i, hp, -⟩; exact hp
  · intro i _ j _ hij
    exact (hs.disj i j hij).mono inter_subset_right inter_subset_right

/-- an octad that contains a foursome and a point of another one -/
theorem Six.contains (hs : Six C T) (h : Fam C) {u : Finset Pt} (hu : u ∈ C) (cu : u.card = 8) {a b : Fin 6} (hab : a ≠ b)
    (ha : T a ⊆ u) {p : Pt} (hp : p ∈ u) (hb : p ∈ T b) : u = T a ∪ T b := by
  have hpn : p ∉ T a := fun hh => hab (hs.eq_col hh hb)
  refine h.octad_unique hu (hs.code a b hab) cu (by rw [card_union_of_disjoint (hs.disj a b hab), hs.four, hs.four]) ?_
  have : insert p (T a) ⊆ u ∩ (T a ∪ T b) := by
    intro q hq
    rcases mem_insert.1 hq with rfl | hq
    · exact mem_inter.2 ⟨hp, mem_union_right _ hb⟩
    · exact mem_inter.2 ⟨ha hq, mem_union_left _ hq⟩
  have hc := card_le_card this
  rw [card_insert_of_notMem hpn, hs.four] at hc
  exact hc

/-- An octad that contains the foursome `a` without the point `e`, and the point `f j` of every other foursome `j`. -/
structure Tri (C : Finset (Finset Pt)) (T : Fin 6 → Finset Pt) (u : Finset Pt) (a : Fin 6) (e : Pt) (f : Fin 6 → Pt) : Prop where
  mem : u ∈ C
  card : u.card = 8
  he : e ∈ T a
  hf : ∀ j, j ≠ a → f j ∈ T j
  three : ∀ r ∈ T a, r ∈ u ↔ r ≠ e
  one : ∀ j, j ≠ a → ∀ r ∈ T j, r ∈ u ↔ r = f j

theorem Six.tri (hs : Six C T) (h : Fam C) {u : Finset Pt} (hu : u ∈ C) (cu : u.card = 8) {a b c : Fin 6} (hab : a ≠ b) (hac : a ≠ c)
    (hbc : b ≠ c) {e p q : Pt} (he : e ∈ T a) (hp : p ∈ T b) (hq : q ∈ T c) (hsub : insert p (insert q ((T a).erase e)) ⊆ u) :
    ∃ f, Tri C T u a e f ∧ f b = p ∧ f c = q := by
  have hpu : p ∈ u := hsub (by simp)
  have hqu : q ∈ u := hsub (by simp)
  have hau : (T a).erase e ⊆ u := fun r hr => hsub (by simp only [mem_insert]; exact Or.inr (Or.inr hr))
  have heu : e ∉ u := by
    intro heu
    have hTa : T a ⊆ u := by
      intro r hr
      by_cases hre : r = e
      · rw [hre]; exact heu
      · exact hau (mem_erase.2 ⟨hre, hr⟩)
    have := hs.contains h hu cu hab hTa hpu hp
    rw [this, mem_union] at hqu
    rcases hqu with hh | hh
    · exact hac (hs.eq_col hh hq)
    · exact hbc (hs.eq_col hh hq)
  have h3 : u ∩ T a = (T a).erase e := by
    ext r
    rw [mem_inter, mem_erase]
    constructor
    · rintro ⟨h1, h2⟩
      exact ⟨fun hh => heu (hh ▸ h1), h2⟩
    · rintro ⟨h1, h2⟩
      exact ⟨hau (mem_erase.2 ⟨h1, h2⟩), h2⟩
  have c3 : (u ∩ T a).card = 3 := by rw [h3, card_erase_of_mem he, hs.four]
  have hodd : ∀ j, j ≠ a → 1 ≤ (u ∩ T j).card := by
    intro j hj
    have h1 := h.even hu (hs.code a j hj.symm)
    rw [card_inter_union (hs.disj a j hj.symm), c3] at h1
    omega
  have hsum := hs.sum u
  rw [cu, ← add_sum_erase univ _ (mem_univ a), c3] at hsum
  have h1 : ∀ j, j ≠ a → (u ∩ T j).card = 1 := by
    have hs5 : ∑ j ∈ univ.erase a, ((u ∩ T j).card - 1) = 0 := by
      have e1 : ∑ j ∈ univ.erase a, (u ∩ T j).card = ∑ j ∈ univ.erase a, ((u ∩ T j).card - 1) + ∑ j ∈ univ.erase a, 1 := by
        rw [← sum_add_distrib]
        apply sum_congr rfl
        intro j hj
        have := hodd j (ne_of_mem_erase hj)
        omega
      rw [sum_const, card_erase_of_mem (mem_univ a), card_univ, Fintype.card_fin] at e1
      simp only [smul_eq_mul, mul_one] at e1
      omega
    intro j hj
    have := (sum_eq_zero_iff.1 hs5) j (mem_erase.2 ⟨hj, mem_univ _⟩)
    have := hodd j hj
    omega
  have hex : ∀ j, ∃ r, j ≠ a → u ∩ T j = {r} := by
    intro j
    by_cases hj : j = a
    · exact ⟨e, fun hh => absurd hj hh⟩
    · obtain ⟨r, hr⟩ := card_eq_one.1 (h1 j hj)
      exact ⟨r, fun _ => hr⟩
  choose f hf using hex
  have hone : ∀ j, j ≠ a → ∀ r ∈ T j, r ∈ u ↔ r = f j := by
    intro j hj r hr
    have := Finset.ext_iff.1 (hf j hj) r
    rw [mem_inter, mem_singleton] at this
    rw [← this]
    exact ⟨fun hh => ⟨hh, hr⟩, fun hh => hh.1⟩
  refine ⟨f, ⟨hu, cu, he, ?_, ?_, hone⟩, ?_, ?_⟩
  · intro j hj
    have : f j ∈ u ∩ T j := by rw [hf j hj]; exact mem_singleton_self _
    exact (mem_inter.1 this).2
  · intro r hr
    have := Finset.ext_iff.1 h3 r
    rw [mem_inter, mem_erase] at this
    constructor
    · intro hh; exact (this.1 ⟨hh, hr⟩).1
    · intro hh; exact (this.2 ⟨hh, hr⟩).1
  · exact ((hone b hab.symm p hp).1 hpu).symm
  · exact ((hone c hac.symm q hq).1 hqu).symm

theorem Tri.f_mem {u : Finset Pt} {a : Fin 6} {e : Pt} {f : Fin 6 → Pt} (h : Tri C T u a e f) {j : Fin 6} (hj : j ≠ a) : f j ∈ u :=
  (h.one j hj _ (h.hf j hj)).2 rfl

/-- five common points of two octads of this kind -/
theorem Tri.five (hs : Six C T) (h : Fam C) {u v : Finset Pt} {a : Fin 6} {e p q : Pt} (hu : u ∈ C) (hv : v ∈ C) (cu : u.card = 8)
    (cv : v.card = 8) (he : e ∈ T a) (h3u : ∀ r ∈ T a, r ≠ e → r ∈ u) (h3v : ∀ r ∈ T a, r ≠ e → r ∈ v) {b c : Fin 6} (hab : b ≠ a)
    (hac : c ≠ a) (hbc : b ≠ c) (hp : p ∈ T b) (hq : q ∈ T c) (pu : p ∈ u) (pv : p ∈ v) (qu : q ∈ u) (qv : q ∈ v) : u = v := by
  refine h.octad_unique hu hv cu cv ?_
  have hsub : insert p (insert q ((T a).erase e)) ⊆ u ∩ v := by
    intro r hr
    rcases mem_insert.1 hr with rfl | hr
    · exact mem_inter.2 ⟨pu, pv⟩
    · rcases mem_insert.1 hr with rfl | hr
      · exact mem_inter.2 ⟨qu, qv⟩
      · exact mem_inter.2 ⟨h3u r (mem_of_mem_erase hr) (ne_of_mem_erase hr), h3v r (mem_of_mem_erase hr) (ne_of_mem_erase hr)⟩
  have hc := card_le_card hsub
  rw [card_insert_of_notMem, card_insert_of_notMem, card_erase_of_mem he, hs.four] at hc
  · exact hc
  · intro hh; exact hac (hs.eq_col hq (mem_of_mem_erase hh))
  · intro hh
    rcases mem_insert.1 hh with rfl | hh
    · exact hbc (hs.eq_col hp hq)
    · exact hab (hs.eq_col hp (mem_of_mem_erase hh))

theorem Tri.eq_of (hs : Six C T) (h : Fam C) {u v : Finset Pt} {a : Fin 6} {e : Pt} {f f' : Fin 6 → Pt} (hu : Tri C T u a e f)
    (hv : Tri C T v a e f') {b c : Fin 6} (hab : b ≠ a) (hac : c ≠ a) (hbc : b ≠ c) (hb : f b = f' b) (hc : f c = f' c) : u = v :=
  Tri.five hs h hu.mem hv.mem hu.card hv.card hu.he (fun r hr => (hu.three r hr).2) (fun r hr => (hv.three r hr).2) hab hac hbc (hu.hf b hab)
    (hu.hf c hac) (hu.f_mem hab) (hb ▸ hv.f_mem hab) (hu.f_mem hac) (hc ▸ hv.f_mem hac)

/-! ## Counting common points -/

theorem card_inter_one {t u v : Finset Pt} {p : Pt} (hp : p ∈ t) (hu : ∀ r ∈ t, r ∈ u ↔ r = p) [Decidable (p ∈ v)] :
    (u ∩ v ∩ t).card = if p ∈ v then 1 else 0 := by
  split
  · rename_i h
    rw [card_eq_one]
    refine ⟨p, ?_⟩
    ext r
    simp only [mem_inter, mem_singleton]
    constructor
    · rintro ⟨⟨h1, -⟩, h2⟩; exact (hu r h2).1 h1
    · rintro rfl; exact ⟨⟨(hu r hp).2 rfl, h⟩, hp⟩
  · rename_i h
    rw [card_eq_zero, eq_empty_iff_forall_notMem]
    intro r hr
    simp only [mem_inter] at hr
    exact h ((hu r hr.2).1 hr.1.1 ▸ hr.1.2)

/-- the common points of two octads of different kinds -/
theorem Tri.inter (hs : Six C T) {u v : Finset Pt} {e e' : Pt} {f f' : Fin 6 → Pt} (hu : Tri C T u 0 e f) (hv : Tri C T v 5 e' f') :
    (u ∩ v).card = (if f' 0 ≠ e then 1 else 0) + (if f 1 = f' 1 then 1 else 0) + (if f 2 = f' 2 then 1 else 0) +
      (if f 3 = f' 3 then 1 else 0) + (if f 4 = f' 4 then 1 else 0) + (if f 5 ≠ e' then 1 else 0) := by
  rw [hs.sum, Fin.sum_univ_six]
  have hmid : ∀ j : Fin 6, j ≠ 0 → j ≠ 5 → (u ∩ v ∩ T j).card = if f j = f' j then 1 else 0 := by
    intro j h0 h5
    rw [card_inter_one (hu.hf j h0) (hu.one j h0)]
    simp only [hv.one j h5 _ (hu.hf j h0)]
  have h0 : (u ∩ v ∩ T 0).card = if f' 0 ≠ e then 1 else 0 := by
    rw [inter_comm u v, card_inter_one (hv.hf 0 (by decide)) (hv.one 0 (by decide))]
    simp only [hu.three _ (hv.hf 0 (by decide))]
  have h5 : (u ∩ v ∩ T 5).card = if f 5 ≠ e' then 1 else 0 := by
    rw [card_inter_one (hu.hf 5 (by decide)) (hu.one 5 (by decide))]
    simp only [hv.three _ (hu.hf 5 (by decide))]
  rw [h0, h5, hmid 1 (by decide) (by decide), hmid 2 (by decide) (by decide), hmid 3 (by decide) (by decide), hmid 4 (by decide) (by decide)]

/-! ## The labels -/

open Verif.Rings

/-- the hexacodeword `(0, 1, alpha, beta, gamma, delta)` -/
def hexa (alpha : Quat) : Fin 6 → Quat
  | 0 => .zero
  | 1 => .one
  | 2 => alpha
  | 3 => (hexacode alpha).1
  | 4 => (hexacode alpha).2.1
  | 5 => (hexacode alpha).2.2

theorem hexa_inj : ∀ (alpha : Quat) (i j : Fin 6), 2 ≤ i → 2 ≤ j → hexa alpha i = hexa alpha j → i = j := by decide

theorem hexa_surj : ∀ (alpha l : Quat), ∃ i : Fin 6, 2 ≤ i ∧ hexa alpha i = l := by decide

/-- the first and the second family of octads -/
structure Phase (C : Finset (Finset Pt)) (T : Fin 6 → Finset Pt) (x y z : Pt) (alpha : Quat) (O : Finset Pt) (o : Fin 6 → Pt)
    (S : Quat → Finset Pt) (s : Quat → Fin 6 → Pt) : Prop where
  hx : x ∈ T 0
  hy : y ∈ T 1
  hz : z ∈ T 1
  hyz : y ≠ z
  triO : Tri C T O 0 x o
  o1 : o 1 = z
  triS : ∀ l, Tri C T (S l) 0 x (s l)
  s1 : ∀ l, s l 1 = y
  so : ∀ i, 2 ≤ i → s (hexa alpha i) i = o i

variable {x y z : Pt} {alpha : Quat} {O : Finset Pt} {o : Fin 6 → Pt} {S : Quat → Finset Pt} {s : Quat → Fin 6 → Pt}

theorem two_ne {i : Fin 6} (hi : 2 ≤ i) : i ≠ 0 ∧ i ≠ 1 := by revert i; decide

theorem Phase.S_ne (hs : Six C T) (h : Fam C) (hp : Phase C T x y z alpha O o S s) {l l' : Quat} (hl : l ≠ l') : S l ≠ S l' := by
  intro e
  obtain ⟨i, i2, hi⟩ := hexa_surj alpha l
  obtain ⟨j, j2, hj⟩ := hexa_surj alpha l'
  have hij : i ≠ j := by rintro rfl; exact hl (hi.symm.trans hj)
  have h1 := hp.triS l
  have h2 := hp.triS l'
  have e1 : o i ∈ S l := by
    rw [← hp.so i i2, hi]; exact h1.f_mem (two_ne i2).1
  have e2 : o j ∈ S l := by
    rw [e, ← hp.so j j2, hj]; exact h2.f_mem (two_ne j2).1
  have hO : S l = O := Tri.five hs h h1.mem hp.triO.mem h1.card hp.triO.card hp.hx (fun r hr => (h1.three r hr).2)
    (fun r hr => (hp.triO.three r hr).2) (two_ne i2).1 (two_ne j2).1 hij (hp.triO.hf i (two_ne i2).1) (hp.triO.hf j (two_ne j2).1) e1
    (hp.triO.f_mem (two_ne i2).1) e2 (hp.triO.f_mem (two_ne j2).1)
  have hyS : y ∈ S l := by rw [← hp.s1 l]; exact h1.f_mem (by decide)
  rw [hO, hp.triO.one 1 (by decide) y hp.hy, hp.o1] at hyS
  exact hp.hyz hyS

theorem Phase.s_inj (hs : Six C T) (h : Fam C) (hp : Phase C T x y z alpha O o S s) {j : Fin 6} (hj : 2 ≤ j) :
    Function.Injective fun l => s l j := by
  intro l l' e
  by_contra hl
  exact hp.S_ne hs h hl ((hp.triS l).eq_of hs h (hp.triS l') (b := 1) (by decide) (two_ne hj).1 (two_ne hj).2.symm
    (by rw [hp.s1, hp.s1]) e)

/-- an injective family of four points of a foursome hits each of its points -/
theorem Six.hit (hs : Six C T) {j : Fin 6} {f : Quat → Pt} (hf : Function.Injective f) (hm : ∀ l, f l ∈ T j) {r : Pt} (hr : r ∈ T j) :
    ∃ l, f l = r := by
  have : univ.image f = T j := by
    apply eq_of_subset_of_card_le
    · intro q hq
      obtain ⟨l, -, rfl⟩ := mem_image.1 hq
      exact hm l
    · rw [card_image_of_injective _ hf, hs.four]
      decide
  rw [← this] at hr
  obtain ⟨l, -, hl⟩ := mem_image.1 hr
  exact ⟨l, hl⟩

/-- the third family of octads -/
structure Phase3 (C : Finset (Finset Pt)) (T : Fin 6 → Finset Pt) (s : Quat → Fin 6 → Pt) (P : Quat → Finset Pt) (p : Quat → Fin 6 → Pt) : Prop where
  triP : ∀ l, Tri C T (P l) 5 (s .zero 5) (p l)
  p4 : ∀ l, p l 4 = s .zero 4
  p3 : ∀ l, p l 3 = s l 3

variable {P : Quat → Finset Pt} {p : Quat → Fin 6 → Pt}

theorem Phase3.p_inj (hs : Six C T) (h : Fam C) (hp : Phase C T x y z alpha O o S s) (h3 : Phase3 C T s P p) {j : Fin 6} (hj : j < 4) :
    Function.Injective fun l => p l j := by
  intro l l' e
  have hj5 : j ≠ 5 := by rintro rfl; exact absurd hj (by decide)
  have hj4 : (4 : Fin 6) ≠ j := by rintro rfl; exact absurd hj (by decide)
  have := (h3.triP l).eq_of hs h (h3.triP l') (b := 4) (by decide) hj5 hj4 (by rw [h3.p4, h3.p4]) e
  apply hp.s_inj hs h (j := 3) (by decide)
  have h1 := (h3.triP l).f_mem (j := 3) (by decide)
  rw [this, (h3.triP l').one 3 (by decide) _ ((h3.triP l).hf 3 (by decide)), h3.p3, h3.p3] at h1
  exact h1

theorem Phase3.parity (hs : Six C T) (h : Fam C) (hp : Phase C T x y z alpha O o S s) (h3 : Phase3 C T s P p) (l m : Quat) :
    ((if p l 0 ≠ x then 1 else 0) + (if p l 1 = y then 1 else 0) + (if s m 2 = p l 2 then 1 else 0) + (if m = l then 1 else 0) + 1) % 2 = 0 := by
  have h1 := h.even (hp.triS m).mem (h3.triP l).mem
  rw [(hp.triS m).inter hs (h3.triP l), hp.s1, h3.p3, h3.p4] at h1
  have e3 : (s m 3 = s l 3) = (m = l) := propext (hp.s_inj hs h (j := 3) (by decide)).eq_iff
  have e4 : (s m 4 = s .zero 4) = (m = .zero) := propext (hp.s_inj hs h (j := 4) (by decide)).eq_iff
  have e5 : (s m 5 = s .zero 5) = (m = .zero) := propext (hp.s_inj hs h (j := 5) (by decide)).eq_iff
  simp only [ne_eq, e3, e4, e5, eq_comm (a := y)] at h1
  have : (if m = Quat.zero then 1 else 0) + (if ¬ m = Quat.zero then 1 else 0) = 1 := by split <;> simp_all
  simp only [ne_eq]
  omega

theorem third_label : ∀ l l' : Quat, ∃ m, m ≠ l ∧ m ≠ l' := by decide

theorem Phase3.p2 (hs : Six C T) (h : Fam C) (hp : Phase C T x y z alpha O o S s) (h3 : Phase3 C T s P p) (l : Quat) : p l 2 = s l 2 := by
  obtain ⟨l', hl'⟩ := hs.hit (hp.s_inj hs h (j := 2) (by decide)) (fun m => (hp.triS m).hf 2 (by decide)) ((h3.triP l).hf 2 (by decide))
  have key := h3.parity hs h hp l
  simp only [← hl', (hp.s_inj hs h (j := 2) (by decide)).eq_iff (f := fun l => s l 2)] at key ⊢
  by_contra hne
  have hll : l ≠ l' := by rintro rfl; exact hne rfl
  obtain ⟨m, hm1, hm2⟩ := third_label l l'
  have k1 := key l
  have k2 := key m
  have eq : ∀ m, (s m 2 = s l' 2) = (m = l') := fun m => propext (hp.s_inj hs h (j := 2) (by decide)).eq_iff
  simp only [eq, hll, hm1, hm2, if_true, if_false] at k1 k2
  omega

theorem Phase3.xy (hs : Six C T) (h : Fam C) (hp : Phase C T x y z alpha O o S s) (h3 : Phase3 C T s P p) (l : Quat) :
    p l 0 = x ↔ p l 1 = y := by
  have key := h3.parity hs h hp l l
  rw [h3.p2 hs h hp] at key
  simp only [if_true] at key
  by_cases h1 : p l 0 = x <;> by_cases h2 : p l 1 = y <;> simp_all

theorem Phase3.at_x (hs : Six C T) (h : Fam C) (hp : Phase C T x y z alpha O o S s) (h3 : Phase3 C T s P p) : p .zero 0 = x := by
  obtain ⟨l, hl⟩ := hs.hit (h3.p_inj hs h hp (j := 0) (by decide)) (fun m => (h3.triP m).hf 0 (by decide)) hp.hx
  by_contra hne
  have hl0 : l ≠ .zero := by rintro rfl; exact hne hl
  have hy := (h3.xy hs h hp l).1 hl
  have tS := hp.triS l
  have tP := h3.triP l
  have mem : ∀ j : Fin 6, j ≠ 0 → j ≠ 5 → ∀ r ∈ T j, r ∈ symmDiff (S l) (P l) ↔ ¬ (r = s l j ↔ r = p l j) := by
    intro j h0 h5 r hr
    rw [mem_symmDiff, tS.one j h0 r hr, tP.one j h5 r hr]
    tauto
  have m0 : ∀ r ∈ T 0, r ∈ symmDiff (S l) (P l) := by
    intro r hr
    rw [mem_symmDiff, tS.three r hr, tP.one 0 (by decide) r hr, hl]
    tauto
  have n4 : s l 4 ≠ s .zero 4 := fun e => hl0 (hp.s_inj hs h (j := 4) (by decide) e)
  have n5 : s l 5 ≠ s .zero 5 := fun e => hl0 (hp.s_inj hs h (j := 5) (by decide) e)
  have q4 : s l 4 ∈ symmDiff (S l) (P l) := by
    rw [mem 4 (by decide) (by decide) _ (tS.hf 4 (by decide)), h3.p4]
    simp [n4]
  obtain ⟨r5, hr5, hr5n⟩ : ∃ r ∈ T 5, r ∈ symmDiff (S l) (P l) := by
    obtain ⟨r, hr, hrn⟩ : ∃ r ∈ T 5, r ∉ ({s l 5, s .zero 5} : Finset Pt) := by
      by_contra hcon
      push Not at hcon
      have := card_le_card (fun r hr => hcon r hr : T 5 ⊆ {s l 5, s .zero 5})
      rw [hs.four] at this
      have := this.trans card_le_two
      omega
    simp only [mem_insert, mem_singleton, not_or] at hrn
    refine ⟨r, hr, ?_⟩
    rw [mem_symmDiff, tS.one 5 (by decide) r hr, tP.three r hr]
    tauto
  have hcard : (symmDiff (S l) (P l)).card = 8 := by
    have c1 := card_symm (S l) (P l)
    rw [tS.card, tP.card, tS.inter hs tP, hl, hy, hp.s1, h3.p2 hs h hp, h3.p3, h3.p4] at c1
    simp only [n4, n5, ne_eq, not_true_eq_false, not_false_eq_true, if_true, if_false] at c1
    omega
  have := hs.contains h (h.add _ tS.mem _ tP.mem) hcard (a := 0) (b := 4) (by decide) m0 q4 (tS.hf 4 (by decide))
  rw [this, mem_union] at hr5n
  rcases hr5n with hh | hh
  · exact absurd (hs.eq_col hh hr5) (by decide)
  · exact absurd (hs.eq_col hh hr5) (by decide)

theorem Phase3.at_y (hs : Six C T) (h : Fam C) (hp : Phase C T x y z alpha O o S s) (h3 : Phase3 C T s P p) : p .zero 1 = y :=
  (h3.xy hs h hp _).1 (h3.at_x hs h hp)

theorem hexa_one : ∀ (alpha l : Quat), l ≠ .zero → ((if hexa alpha 2 = l then 1 else 0) + (if hexa alpha 3 = l then 1 else 0) +
    (if hexa alpha 4 = .zero then 1 else 0) + (if hexa alpha 5 ≠ .zero then 1 else 0)) % 2 = 0 → l = .one := by decide

theorem Phase3.at_z (hs : Six C T) (h : Fam C) (hp : Phase C T x y z alpha O o S s) (h3 : Phase3 C T s P p) : p .one 1 = z := by
  obtain ⟨l, hl⟩ := hs.hit (h3.p_inj hs h hp (j := 1) (by decide)) (fun m => (h3.triP m).hf 1 (by decide)) hp.hz
  have hl0 : l ≠ .zero := by
    rintro rfl
    exact hp.hyz ((h3.at_y hs h hp).symm.trans hl)
  have h0 : p l 0 ≠ x := fun e => hl0 (h3.p_inj hs h hp (j := 0) (by decide) (e.trans (h3.at_x hs h hp).symm))
  have h1 := h.even hp.triO.mem (h3.triP l).mem
  rw [hp.triO.inter hs (h3.triP l), hp.o1, hl, h3.p2 hs h hp, h3.p3, h3.p4, ← hp.so 2 (by decide), ← hp.so 3 (by decide), ← hp.so 4 (by decide),
    ← hp.so 5 (by decide)] at h1
  have e : ∀ j : Fin 6, 2 ≤ j → ∀ m m', (s m j = s m' j) = (m = m') := fun j hj m m' => propext (hp.s_inj hs h hj).eq_iff
  simp only [ne_eq, e 2 (by decide), e 3 (by decide), e 4 (by decide), e 5 (by decide), h0, not_false_eq_true, if_true] at h1
  have := hexa_one alpha l hl0 (by simp only [ne_eq]; omega)
  rw [← this]
  exact hl

end Verif.Golay
