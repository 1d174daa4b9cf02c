import Verif.Proofs.IsoRep

/-!
# Property theorems for isomorphism classes (C25)

`c.Means H` (Spec/IsoRep.lean) says that the group `H` belongs to the class `c`; `K.IsoTo H` that the table `K` is a group isomorphic to `H`.
-/

namespace Verif.Table

open Verif.ToddCoxeter

/-- C25: the product of two classes other than `Trivial` denotes the direct product. Missing (and false, see `C25_mul_trivial_wrong`):
factors `Trivial`. -/
theorem C25_mul_partial (lt : Cls → Cls → Bool) (a b : Cls) (A B : Type) [Group A] [Group B] (ha : a.Means A) (hb : b.Means B)
    (na : a ≠ .trivial) (nb : b ≠ .trivial) : (a.mul lt b).Means (A × B) := means_mul ha hb na nb

/-- C25 is violated: multiplying by `Trivial` on either side gives `Trivial`, whatever the other factor is. -/
theorem C25_mul_trivial_wrong (lt : Cls → Cls → Bool) :
    (∀ c, Cls.trivial.mul lt c = .trivial ∧ c.mul lt .trivial = .trivial) ∧
    ¬ ∀ (a b : Cls) (A B : Type) [Group A] [Group B], a.Means A → b.Means B → (a.mul lt b).Means (A × B) := by
  have h1 : ∀ c, Cls.trivial.mul lt c = .trivial ∧ c.mul lt .trivial = .trivial := by
    intro c
    refine ⟨rfl, ?_⟩
    cases c <;> rfl
  refine ⟨h1, ?_⟩
  intro h
  have := h .trivial (.cyclic 2) Unit (Multiplicative (ZMod 2)) (.trivial _ inferInstance) (.cyclic 2 _ (by omega) (MulEquiv.refl _))
  rw [(h1 _).1] at this
  have hc := Means.card_trivial this
  rw [Nat.card_prod, Nat.card_unique, one_mul, Nat.card_eq_fintype_card] at hc
  rw [show Fintype.card (Multiplicative (ZMod 2)) = 2 from rfl] at hc
  omega

/-- C25: whenever `from_group` returns a class, the group belongs to that class — for every hash order, counter value and key order. -/
theorem C25_from_group (lt : Cls → Cls → Bool) (es : List Bool → Env) (G : VGrp) (hc : G.ConjCacheOk) (c : Cls)
    (h : fromGroup lt es G.g = some c) : c.Means G.Elem := fromGroup_sound lt es G.g c h G.ok hc

/-- C25: `to_group` of a class without `Unknown` returns a table of every group in that class. -/
theorem C25_to_group_partial (e : Env) (hd : ∀ n, 1 ≤ n → ∃ D, dihedral e.counter n = some D ∧ D.n = 2 * n) (c : Cls) (hk : c.Known) (H : Type)
    [Group H] (hm : c.Means H) : ∃ K, c.toGroup e = some (some K) ∧ K.IsoTo H := (toGroup_spec e hd hm hk).1

/-- C25: recognising a group and rebuilding it gives an isomorphic group. -/
theorem C25_round_trip_partial (lt : Cls → Cls → Bool) (es : List Bool → Env) (e : Env)
    (hd : ∀ n, 1 ≤ n → ∃ D, dihedral e.counter n = some D ∧ D.n = 2 * n) (G : VGrp) (hc : G.ConjCacheOk) (c : Cls) (hk : c.Known)
    (h : fromGroup lt es G.g = some c) : ∃ K, c.toGroup e = some (some K) ∧ K.IsoTo G.Elem :=
  C25_to_group_partial e hd c hk G.Elem (C25_from_group lt es G hc c h)

/-- C25: `Unknown` cannot be rebuilt: `to_group` returns `Err`. -/
theorem C25_to_group_unknown (e : Env) (n : Nat) : (Cls.unknown n).toGroup e = some none := by rw [Cls.toGroup]

/-- the quaternion table of the code is the quaternion group, whatever the generator counter is -/
theorem C25_quaternion (c : Nat) (hc : 1 ≤ c) : ∃ G, quaternion c = some G ∧ G.IsoTo (QuaternionGroup 2) := isoTo_quaternion c hc

/-- C25: whenever `dihedral_group_structure(n)` returns, the table has at least `2n` elements, and it is the dihedral group if it has exactly `2n`.
Missing: that it always returns with `2n` elements. -/
theorem C25_dihedral_partial (c n : Nat) (hc : 1 ≤ c) (hn : 1 ≤ n) (D : Grp) (h : dihedral c n = some D) :
    2 * n ≤ D.n ∧ (D.n = 2 * n → D.IsoTo (DihedralGroup n)) :=
  ⟨dihedral_isGroup hc hn h, isoTo_dihedral hc hn h⟩

/-- for `n = 3` it does, so the hypothesis is met -/
example : ∃ D, dihedral 5 3 = some D ∧ D.n = 2 * 3 := by
  rw [dihedral_eq 5 3 (by omega) (by omega)]
  have h2 : ((enumF 200 2 (dihRels 3) []).bind fun r => finiteF 40 2 r.1 r.2).map (fun G => G.n) = some 6 := by decide +kernel
  obtain ⟨G, hG, hn⟩ := Option.map_eq_some_iff.1 h2
  obtain ⟨r, hr, hf⟩ := Option.bind_eq_some_iff.1 hG
  have : intoFiniteGroup 2 (dihRels 3) = some G := by
    unfold intoFiniteGroup
    rw [enumF_spec _ _ _ _ _ hr]
    exact finiteF_spec _ _ _ _ _ hf
  rw [this]
  exact ⟨_, rfl, hn⟩

/-- a product class is met by a concrete group: `C₂ × C₃` times `C₂` -/
example (lt : Cls → Cls → Bool) : ((Cls.directProduct [(.cyclic 2, 1), (.cyclic 3, 1)]).mul lt (.cyclic 2)).Means
    ((Multiplicative (ZMod 2) × Multiplicative (ZMod 3)) × Multiplicative (ZMod 2)) := by
  refine C25_mul_partial lt _ _ _ _ ?_ (.cyclic 2 _ (by omega) (MulEquiv.refl _)) (by simp) (by simp)
  refine .prodSucc _ 0 _ _ (Multiplicative (ZMod 3)) _ (.cyclic 2 _ (by omega) (MulEquiv.refl _)) ?_ (MulEquiv.refl _)
  refine .prodZero _ _ _ ?_
  exact .prodSucc _ 0 _ _ Unit _ (.cyclic 3 _ (by omega) (MulEquiv.refl _)) (.prodZero _ _ _ (.prodNil _ inferInstance)) MulEquiv.prodUnique.symm

/-- C25: cyclic groups are always recognised (and the search returns). -/
theorem C25_from_group_cyclic (lt : Cls → Cls → Bool) (es : List Bool → Env) (G : VGrp) :
    (G.g.n = 1 → fromGroup lt es G.g = some .trivial) ∧
    (G.g.n ≠ 1 → IsCyclic G.Elem → fromGroup lt es G.g = some (.cyclic G.g.n)) := by
  refine ⟨fun h => by rw [fromGroup, if_pos h], ?_⟩
  intro h hc
  have hpos : 0 < G.g.n := lt_of_le_of_lt (Nat.zero_le _) G.ok.ident_lt
  obtain ⟨C, hC, hCn, hCi⟩ := isoTo_cyclic (n := G.g.n) hpos
  obtain ⟨g, ⟨e⟩⟩ := hCi
  have hcard : Nat.card G.Elem = G.g.n := by rw [Nat.card_eq_fintype_card]; exact Fintype.card_fin _
  have hiso : Nonempty (G.Elem ≃* (VGrp.mk C g).Elem) := by
    have f := zmodCyclicMulEquiv hc
    rw [hcard] at f
    exact ⟨f.symm.trans e.symm⟩
  obtain ⟨f, hf, -⟩ := (C24_find_isomorphism G ⟨C, g⟩ (es []).umax (es []).os).1 hiso
  rw [fromGroup, if_neg h, hC]
  change (findIsomorphism (es []).umax G.g C (es []).os).bind _ = _
  rw [hf]
  rfl

/-- there are environments, so the theorems are not vacuous -/
example (o : Oracle) (ord : Order (Finset Nat × Finset Nat)) : Nonempty Env :=
  ⟨{ umax := 2 ^ 64 - 1, os := fun _ => o, o, ord, counter := 1
     enum := fun n => _, counter_pos := le_rfl, enum_ok := Verif.Props.Perm.enumerates_allPermutations }⟩

end Verif.Table
