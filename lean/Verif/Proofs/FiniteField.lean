import Verif.Spec.FiniteField
import Verif.Proofs.Numbers
import Verif.Proofs.Structure
import Mathlib.Data.ZMod.Basic
import Mathlib.FieldTheory.Finite.Basic
import Mathlib.FieldTheory.Finite.GaloisField
import Mathlib.Data.Int.GCD
import Mathlib.RingTheory.Int.Basic

namespace Verif.Rings

theorem moduloXgcdLoop_spec (X Y : Nat) : ∀ (x y : Nat) (pa a pb b : Int),
    (x : Int) = pa * X + pb * Y → (y : Int) = a * X + b * Y → Nat.gcd x y = Nat.gcd X Y →
    (moduloXgcdLoop x y pa a pb b).1 = Nat.gcd X Y ∧
    ((moduloXgcdLoop x y pa a pb b).1 : Int) = (moduloXgcdLoop x y pa a pb b).2.1 * X + (moduloXgcdLoop x y pa a pb b).2.2 * Y := by
  intro x y
  induction y using Nat.strong_induction_on generalizing x with
  | _ y ih =>
    intro pa a pb b h1 h2 h3
    rw [moduloXgcdLoop]
    split
    · rename_i h0
      subst h0
      exact ⟨by simpa using h3, h1⟩
    · rename_i h0
      refine ih (x % y) (Nat.mod_lt _ (Nat.pos_of_ne_zero h0)) y _ _ _ _ h2 ?_ ?_
      · have := Nat.div_add_mod x y
        have e : ((x % y : Nat) : Int) = x - y * (x / y : Nat) := by
          have h' : (x : Int) = y * (x / y : Nat) + (x % y : Nat) := by exact_mod_cast this.symm
          omega
        rw [e, h1, h2]; ring
      · rw [← h3, Nat.gcd_comm x y, Nat.gcd_rec y x, Nat.gcd_comm]

theorem moduloXgcd_spec (x y : Nat) : (moduloXgcd x y).1 = Nat.gcd x y ∧
    ((moduloXgcd x y).1 : Int) = (moduloXgcd x y).2.1 * x + (moduloXgcd x y).2.2 * y :=
  moduloXgcdLoop_spec x y x y 1 0 0 1 (by simp) (by simp) rfl

theorem moduloOf_eq (a : Int) (n : Nat) (hn : 0 < n) : (moduloOf a n : Int) = a % n := by
  unfold moduloOf
  have hn' : (0 : Int) < n := by exact_mod_cast hn
  have h1 := Int.emod_nonneg a hn'.ne'
  have h2 := Int.emod_lt_of_pos a hn'
  have h3 := Int.tmod_eq_emod (a := a) (b := (n : Int))
  have hna : ((n : Int).natAbs : Int) = n := by simp
  have h4 : a.tmod n = a % n ∨ (a < 0 ∧ a % n ≠ 0 ∧ a.tmod n = a % n - n) := by
    by_cases hc : 0 ≤ a ∨ (n : Int) ∣ a
    · rw [if_pos hc] at h3; left; simpa using h3
    · rw [if_neg hc, hna] at h3
      push Not at hc
      exact Or.inr ⟨hc.1, fun e => hc.2 (Int.dvd_of_emod_eq_zero e), h3⟩
  dsimp only
  rcases h4 with h4 | ⟨h5, h6, h4⟩
  · rw [h4, if_neg (by omega), Int.toNat_of_nonneg h1]
  · rw [h4, if_pos (by omega), Int.toNat_of_nonneg (by omega)]; omega

theorem moduloOf_cast (a : Int) (n : Nat) (hn : 0 < n) : ((moduloOf a n : Nat) : ZMod n) = a := by
  have := moduloOf_eq a n hn
  have h2 : ((moduloOf a n : Int) : ZMod n) = ((a % n : Int) : ZMod n) := by rw [this]
  simpa using h2

theorem moduloOf_lt (a : Int) (n : Nat) (hn : 0 < n) : moduloOf a n < n := by
  have h := moduloOf_eq a n hn
  have := Int.emod_lt_of_pos a (b := n) (by exact_mod_cast hn)
  omega

/-- the element of `ZMod n` that a representative denotes -/
def moduloVal (n : Nat) (x : Fin n) : ZMod n := (x.val : ZMod n)

theorem moduloVal_inj {n : Nat} (a b : Fin n) : moduloVal n a = moduloVal n b ↔ a = b := by
  unfold moduloVal
  rw [ZMod.natCast_eq_natCast_iff']
  rw [Nat.mod_eq_of_lt a.2, Nat.mod_eq_of_lt b.2, Fin.ext_iff]

theorem moduloVal_eq_zero {n : Nat} (a : Fin n) : moduloVal n a = 0 ↔ a.val = 0 := by
  unfold moduloVal
  rw [ZMod.natCast_eq_zero_iff]
  exact ⟨fun h => Nat.eq_zero_of_dvd_of_lt h a.2, fun h => by rw [h]; exact dvd_zero _⟩

theorem moduloOps_ring (n : Nat) (hn : 0 < n) : (moduloOps n hn).toRingOps.Models (moduloVal n) where
  equal a b := by
    rw [moduloVal_inj, Fin.ext_iff]
    exact beq_iff_eq
  zero := by simp [moduloOps, moduloVal]
  one := by
    change ((moduloOne n : Nat) : ZMod n) = 1
    unfold moduloOne
    split
    · rename_i h; subst h; exact Subsingleton.elim _ _
    · simp
  add a b := by
    change ((moduloAdd n a b : Nat) : ZMod n) = (a.val : ZMod n) + (b.val : ZMod n)
    simp [moduloAdd]
  mul a b := by
    change ((moduloMul n a b : Nat) : ZMod n) = (a.val : ZMod n) * (b.val : ZMod n)
    simp [moduloMul]
  surj r := by
    haveI : NeZero n := ⟨hn.ne'⟩
    exact ⟨⟨r.val, ZMod.val_lt r⟩, by simp [moduloVal]⟩
  neg a := by
    change ((moduloNeg n a : Nat) : ZMod n) = -(a.val : ZMod n)
    unfold moduloNeg
    split
    · rename_i h; simp [h]
    · rw [Nat.cast_sub a.2.le]; simp

theorem moduloDiv_field {p : Nat} (hp : p.Prime) (top bot : Fin p) (hb : bot.val ≠ 0) :
    ∃ q, moduloDiv p top bot = some (.ok q) ∧ q < p ∧ (q : ZMod p) * bot.val = top.val := by
  obtain ⟨h1, h2⟩ := moduloXgcd_spec bot p
  have hg : Nat.gcd bot p = 1 := by
    have := (Nat.Prime.coprime_iff_not_dvd hp).2 (fun hd => hb (Nat.eq_zero_of_dvd_of_lt hd bot.2))
    exact (Nat.coprime_comm.1 this)
  rw [hg] at h1
  refine ⟨moduloOf (moduloXgcd bot p).2.1 p * (top / (moduloXgcd bot p).1) % p, ?_, Nat.mod_lt _ hp.pos, ?_⟩
  · unfold moduloDiv
    rw [if_neg hb]
    dsimp only
    rw [if_pos h2, moduloDivFinish, if_pos (by rw [h1]; exact Nat.mod_one _)]
  · rw [h1] at h2 ⊢
    have h3 : ((moduloXgcd bot p).2.1 : ZMod p) * (bot.val : ZMod p) = 1 := by
      have := congrArg (Int.cast : Int → ZMod p) h2
      push_cast at this
      simpa using this.symm
    rw [ZMod.natCast_mod, Nat.div_one, Nat.cast_mul, moduloOf_cast _ _ hp.pos]
    calc _ = (((moduloXgcd bot p).2.1 : ZMod p) * (bot.val : ZMod p)) * (top.val : ZMod p) := by ring
      _ = _ := by rw [h3, one_mul]

theorem moduloOps_models {p : Nat} (hp : Fact p.Prime) : (moduloOps p hp.out.pos).Models (moduloVal p) where
  toRing := moduloOps_ring p hp.out.pos
  domain := inferInstance
  div_zero a b hb := by
    rw [moduloVal_eq_zero] at hb
    have : moduloDiv p a b = some (.error .divideByZero) := by unfold moduloDiv; rw [if_pos hb]
    simp [moduloOps, this, moduloWrap]
  div_ok a b hb _ := by
    rw [Ne, moduloVal_eq_zero] at hb
    obtain ⟨q, h1, h2, h3⟩ := moduloDiv_field hp.out a b hb
    refine ⟨⟨q, h2⟩, ?_, h3.symm⟩
    simp [moduloOps, h1, moduloWrap]
  div_not a b hb hd := by
    exact absurd ((isUnit_iff_ne_zero.2 hb).dvd) hd
  units_ne := by
    intro a ha
    simp only [moduloOps, List.mem_map, List.mem_attach, true_and, Subtype.exists] at ha
    obtain ⟨x, hx, rfl⟩ := ha
    rw [Ne, moduloVal_eq_zero]
    simp only [moduloAllUnits, List.mem_range'_1] at hx
    change x ≠ 0
    omega
  units_nodup := by
    rw [List.nodup_map_iff_inj_on]
    · intro a _ b _ h; exact (moduloVal_inj a b).1 h
    · simp only [moduloOps]
      refine (List.nodup_attach.2 List.nodup_range').map ?_
      intro a b h
      simpa [Subtype.ext_iff] using h
  units_all := by
    intro x hx
    haveI : NeZero p := ⟨hp.out.ne_zero⟩
    rw [List.mem_map]
    refine ⟨⟨x.val, ZMod.val_lt x⟩, ?_, by simp [moduloVal]⟩
    simp only [moduloOps, List.mem_map, List.mem_attach, true_and, Subtype.exists]
    refine ⟨x.val, ?_, rfl⟩
    simp only [moduloAllUnits, List.mem_range'_1]
    have := ZMod.val_lt x
    have h0 : x.val ≠ 0 := by rwa [Ne, ZMod.val_eq_zero]
    omega
  prime := hp.out
  char := ZMod.charP p
  card := by simp [moduloOps]
  finite := by
    haveI : NeZero p := ⟨hp.out.ne_zero⟩
    infer_instance

/-! ## the field of four elements -/

instance : Fintype Quat := ⟨{.zero, .one, .alpha, .beta}, by intro x; cases x <;> decide⟩

/-- the inverse of a non-zero element -/
def Quat.inv : Quat → Quat
  | .zero => .zero
  | .one => .one
  | .alpha => .beta
  | .beta => .alpha

instance : Zero Quat := ⟨.zero⟩
instance : One Quat := ⟨.one⟩
instance : Add Quat := ⟨Quat.add⟩
instance : Neg Quat := ⟨fun a => a⟩
instance : Mul Quat := ⟨Quat.mul⟩
instance : Inv Quat := ⟨Quat.inv⟩

instance : Field Quat where
  add_assoc := by decide
  zero_add := by decide
  add_zero := by decide
  add_comm := by decide
  neg_add_cancel := by decide
  mul_assoc := by decide
  mul_comm := by decide
  one_mul := by decide
  mul_one := by decide
  zero_mul := by decide
  mul_zero := by decide
  left_distrib := by decide
  right_distrib := by decide
  exists_pair_ne := ⟨.zero, .one, by decide⟩
  mul_inv_cancel := by decide
  inv_zero := rfl
  nsmul := nsmulRec
  zsmul := zsmulRec
  nnqsmul := _
  qsmul := _

theorem quat_card : Nat.card Quat = 2 ^ 2 := by
  rw [Nat.card_eq_fintype_card]; rfl

instance : CharP Quat 2 := by
  have h : (2 : Quat) = 0 := by decide
  haveI : ExpChar Quat 2 := by
    haveI := CharTwo.of_one_ne_zero_of_two_eq_zero (R := Quat) one_ne_zero h
    exact ExpChar.prime Nat.prime_two
  exact CharTwo.of_one_ne_zero_of_two_eq_zero one_ne_zero h

/-- the operations of `quatOps` are those of the `Field` instance -/
theorem quatOps_models_id : quatOps.Models (id : Quat → Quat) where
  equal a b := by exact beq_iff_eq
  zero := rfl
  one := rfl
  add _ _ := rfl
  mul _ _ := rfl
  surj r := ⟨r, rfl⟩
  neg _ := rfl
  domain := inferInstance
  div_zero a b hb := by
    have hb : b = .zero := hb
    subst hb
    cases a <;> rfl
  div_ok a b hb _ := by
    cases a <;> cases b <;> first | exact absurd rfl hb | exact ⟨_, rfl, rfl⟩
  div_not a b hb hd := absurd ((isUnit_iff_ne_zero.2 hb).dvd) hd
  units_ne := by decide
  units_nodup := by decide
  units_all := by decide
  prime := Nat.prime_two
  char := inferInstanceAs (CharP Quat 2)
  card := quat_card
  finite := inferInstance

/-- transport of `Models` along a ring isomorphism -/
theorem FinFieldOps.Models.trans {α K L : Type} [Field K] [Field L] {F : FinFieldOps α} {v : α → K} (h : F.Models v) (e : K ≃+* L) :
    F.Models (fun a => e (v a)) where
  equal a b := by rw [h.equal]; exact e.injective.eq_iff.symm
  zero := by rw [h.zero, map_zero]
  one := by rw [h.one, map_one]
  add a b := by rw [h.add, map_add]
  mul a b := by rw [h.mul, map_mul]
  surj r := by
    obtain ⟨a, ha⟩ := h.surj (e.symm r)
    exact ⟨a, by rw [ha, e.apply_symm_apply]⟩
  neg a := by rw [h.neg, map_neg]
  domain := inferInstance
  div_zero a b hb := h.div_zero a b (by simpa using hb)
  div_ok a b hb _ := by
    have hb' : v b ≠ 0 := by simpa using hb
    obtain ⟨q, h1, h2⟩ := h.div_ok a b hb' ((isUnit_iff_ne_zero.2 hb').dvd)
    exact ⟨q, h1, by rw [h2, map_mul]⟩
  div_not a b hb hd := absurd ((isUnit_iff_ne_zero.2 hb).dvd) hd
  units_ne a ha := by simpa using h.units_ne a ha
  units_nodup := by
    have := h.units_nodup.map e.injective
    rwa [List.map_map] at this
  units_all x hx := by
    have := h.units_all (e.symm x) (by simpa using hx)
    rw [List.mem_map] at this ⊢
    obtain ⟨a, h1, h2⟩ := this
    exact ⟨a, h1, by rw [h2, e.apply_symm_apply]⟩
  prime := h.prime
  char := by
    haveI := h.char
    exact charP_of_injective_ringHom (f := (e : K →+* L)) e.injective _
  card := by rw [← h.card]; exact (Nat.card_congr e.toEquiv).symm
  finite := by
    haveI := h.finite
    exact Finite.of_equiv K e.toEquiv

theorem quatOps_models_galois : ∃ v : Quat → GaloisField 2 2, Function.Bijective v ∧ quatOps.Models v := by
  haveI : Fact (Nat.Prime 2) := ⟨Nat.prime_two⟩
  haveI : Fintype (GaloisField 2 2) := Fintype.ofFinite _
  have hc : Fintype.card Quat = Fintype.card (GaloisField 2 2) := by
    rw [← Nat.card_eq_fintype_card, ← Nat.card_eq_fintype_card, quat_card, GaloisField.card 2 2 (by norm_num)]
  exact ⟨_, (FiniteField.ringEquivOfCardEq hc).bijective, quatOps_models_id.trans (FiniteField.ringEquivOfCardEq hc)⟩

/-! ## integers modulo a prime -/

theorem mem_intModUnitsLoop (m u : Nat) (x : Int) : x ∈ intModUnitsLoop m u ↔ (u : Int) ≤ x ∧ x < m := by
  induction h : m - u generalizing u with
  | zero =>
    rw [intModUnitsLoop, if_neg (by omega)]
    simp; omega
  | succ k ih =>
    rw [intModUnitsLoop, if_pos (by omega), List.mem_cons, ih (u + 1) (by omega)]
    push_cast; omega

theorem nodup_intModUnitsLoop (m u : Nat) : (intModUnitsLoop m u).Nodup := by
  induction h : m - u generalizing u with
  | zero =>
    rw [intModUnitsLoop, if_neg (by omega)]
    simp
  | succ k ih =>
    rw [intModUnitsLoop, if_pos (by omega), List.nodup_cons]
    refine ⟨?_, ih (u + 1) (by omega)⟩
    rw [mem_intModUnitsLoop]
    push_cast; omega

theorem intModOps_models (m : Int) (hp : Fact m.natAbs.Prime) : (intModOps m).Models (fun a : Int => (a : ZMod m.natAbs)) := by
  have hz : ∀ a : Int, (a : ZMod m.natAbs) = 0 ↔ m ∣ a := by
    intro a
    rw [ZMod.intCast_zmod_eq_zero_iff_dvd] 
    exact Int.natAbs_dvd
  have hirr : Irreducible (id m) := (Int.prime_iff_natAbs_prime.2 hp.out).irreducible
  have h := (intOps_models.quotientField m hirr).1
  have hq : ∀ a b : Int, (Ideal.Quotient.mk (Ideal.span {id m}) (id a) = Ideal.Quotient.mk (Ideal.span {id m}) (id b)) ↔ (a : ZMod m.natAbs) = b := by
    intro a b
    rw [← sub_eq_zero (a := (a : ZMod m.natAbs)), ← Int.cast_sub, hz, quot_eq_iff]
    rfl
  have hq' : ∀ {a b : Int}, Ideal.Quotient.mk (Ideal.span {id m}) (id a) = Ideal.Quotient.mk (Ideal.span {id m}) (b) → (a : ZMod m.natAbs) = b :=
    fun {a b} e => (hq a b).1 e
  have hq0 : ∀ b : Int, (b : ZMod m.natAbs) = 0 ↔ Ideal.Quotient.mk (Ideal.span {id m}) (id b) = 0 := by
    intro b
    have := hq b 0
    simpa using this.symm
  refine ⟨⟨⟨⟨?_, ?_, ?_, ?_, ?_, ?_⟩, ?_⟩, inferInstance, ?_, ?_, ?_⟩, ?_, ?_, ?_, hp.out, ?_, ?_, ?_⟩
  · intro a b; exact (h.equal a b).trans (hq a b)
  · simpa using hq' (b := 0) (by rw [map_zero]; exact h.zero)
  · simpa using hq' (b := 1) (by rw [map_one]; exact h.one)
  · intro a b
    simpa using hq' (b := a + b) (by rw [map_add]; exact h.add a b)
  · intro a b
    simpa using hq' (b := a * b) (by rw [map_mul]; exact h.mul a b)
  · intro r
    haveI : NeZero m.natAbs := ⟨hp.out.ne_zero⟩
    exact ⟨(r.val : Int), by simp⟩
  · intro a
    simpa using hq' (b := -a) (by rw [map_neg]; exact h.neg a)
  · intro a b hb
    exact h.div_zero a b ((hq0 b).1 hb)
  · intro a b hb _
    have hb' : Ideal.Quotient.mk (Ideal.span {id m}) (id b) ≠ 0 := fun e => hb ((hq0 b).2 e)
    obtain ⟨q, q1, q2⟩ := h.div_ok a b hb' (by
      letI := ((intOps_models.quotientField m hirr).2).toField
      exact (isUnit_iff_ne_zero.2 hb').dvd)
    refine ⟨q, q1, ?_⟩
    simpa using hq' (b := q * b) (by rw [map_mul]; exact q2)
  · intro a b hb hd
    exact absurd ((isUnit_iff_ne_zero.2 hb).dvd) hd
  · intro a ha
    rw [show (intModOps m).allUnits = intModUnitsLoop m.natAbs 1 from rfl, mem_intModUnitsLoop] at ha
    rw [Ne, hz]
    intro hd
    have := Int.le_of_dvd (by omega) (Int.natAbs_dvd.2 hd)
    omega
  · rw [show (intModOps m).allUnits = intModUnitsLoop m.natAbs 1 from rfl, List.nodup_map_iff_inj_on (nodup_intModUnitsLoop _ _)]
    intro a ha b hb hab
    rw [mem_intModUnitsLoop] at ha hb
    rw [← sub_eq_zero, ← Int.cast_sub, hz] at hab
    have hd := Int.natAbs_dvd.2 hab
    have := Int.eq_zero_of_abs_lt_dvd hd (by rw [abs_lt]; omega)
    omega
  · intro x hx
    haveI : NeZero m.natAbs := ⟨hp.out.ne_zero⟩
    rw [List.mem_map]
    refine ⟨(x.val : Int), ?_, by simp⟩
    rw [show (intModOps m).allUnits = intModUnitsLoop m.natAbs 1 from rfl, mem_intModUnitsLoop]
    have := ZMod.val_lt x
    have h0 : x.val ≠ 0 := by rwa [Ne, ZMod.val_eq_zero]
    omega
  · exact ZMod.charP _
  · simp [intModOps]
  · haveI : NeZero m.natAbs := ⟨hp.out.ne_zero⟩
    infer_instance

/-! ## all elements -/

theorem FinFieldOps.Models.elements {α K : Type} [Field K] {F : FinFieldOps α} {v : α → K} (h : F.Models v) :
    (F.elements.map v).Nodup ∧ (∀ x : K, x ∈ F.elements.map v) ∧ F.elements.length = F.charPow.1 ^ F.charPow.2 := by
  have e : F.elements.map v = 0 :: F.allUnits.map v := by
    unfold FinFieldOps.elements RingOps.allElements
    rw [List.map_cons, h.toDomain.toRing.toSemi.zero]
  have nd : (F.elements.map v).Nodup := by
    rw [e, List.nodup_cons]
    refine ⟨?_, h.units_nodup⟩
    intro hm
    obtain ⟨a, ha, ha0⟩ := List.mem_map.1 hm
    exact h.units_ne a ha ha0
  have all : ∀ x : K, x ∈ F.elements.map v := by
    intro x
    rw [e, List.mem_cons]
    by_cases hx : x = 0
    · exact Or.inl hx
    · exact Or.inr (h.units_all x hx)
  refine ⟨nd, all, ?_⟩
  classical
  haveI := h.finite
  haveI : Fintype K := Fintype.ofFinite K
  have hu : (F.elements.map v).toFinset = Finset.univ := by
    ext x; simpa using all x
  have := List.toFinset_card_of_nodup nd
  rw [hu, Finset.card_univ, ← Nat.card_eq_fintype_card, h.card, List.length_map] at this
  exact this.symm

end Verif.Rings
