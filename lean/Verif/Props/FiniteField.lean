import Verif.Proofs.FiniteField
import Mathlib.Tactic.NormNum.Prime

/-!
# Properties of the finite field structures
-/

namespace Verif.Rings

/-! ## C80: `Modulo<N>` -/

/-- For every `N > 0` the operations of `Modulo<N>` are those of the ring of integers modulo `N`. -/
theorem C80_ring (n : Nat) (hn : 0 < n) : (moduloOps n hn).toRingOps.Models (fun x : Fin n => (x.val : ZMod n)) :=
  moduloOps_ring n hn

/-- For every prime `N`, `Modulo<N>` presents the field with `N` elements: division is field division, `all_units` lists every
non-zero element exactly once and `characteristic_and_power` is right. -/
theorem C80_field (p : Nat) (hp : Fact p.Prime) : (moduloOps p hp.out.pos).Models (fun x : Fin p => (x.val : ZMod p)) :=
  moduloOps_models hp

/-- Every `N` for which the field structure is implemented is a prime. -/
theorem C80_literals_prime : ∀ p ∈ moduloPrimes, p.Prime := by
  have key : ∀ p ∈ moduloPrimes, 2 ≤ p ∧ p < 1000 ∧ ∀ d < 32, 2 ≤ d → d ∣ p → d = p := by decide +kernel
  intro p hp
  obtain ⟨h1, h2, h3⟩ := key p hp
  rw [Nat.prime_def_minFac]
  refine ⟨h1, ?_⟩
  by_contra hne
  have h4 := Nat.minFac_dvd p
  have h5 := (Nat.minFac_prime (n := p) (by omega)).two_le
  have h6 : ¬ p.Prime := fun hp' => hne hp'.minFac_eq
  have h7 := Nat.minFac_sq_le_self (by omega) h6
  have h8 : p.minFac < 32 := by nlinarith
  exact hne (h3 _ h8 h5 h4)

/-- The literals are exactly the primes below 1000. -/
theorem C80_literals_all (p : Nat) (h : p < 1000) (hp : p.Prime) : p ∈ moduloPrimes := by
  by_contra hc
  have key : ∀ q < 1000, q ∉ moduloPrimes → q < 2 ∨ ∃ d < 32, 2 ≤ d ∧ d ∣ q ∧ d < q := by decide +kernel
  rcases key p h hc with h2 | ⟨d, -, hd, hdp, hlt⟩
  · exact absurd hp.two_le (by omega)
  · rcases (Nat.dvd_prime hp).1 hdp with h1 | h1 <;> omega

/-- `From<usize>` gives the residue class. -/
theorem C80_from_usize (n value : Nat) (hn : 0 < n) : moduloFromUsize n value < n ∧ (moduloFromUsize n value : ZMod n) = value :=
  ⟨Nat.mod_lt _ hn, by unfold moduloFromUsize; exact ZMod.natCast_mod value n⟩

/-- `From<isize>` and `From<i32>` give the residue class, for negative numbers too. -/
theorem C80_from_isize (n : Nat) (value : Int) (hn : 0 < n) :
    moduloFromIsize n value < n ∧ (moduloFromIsize n value : ZMod n) = value :=
  ⟨moduloOf_lt value n hn, moduloOf_cast value n hn⟩

/-- `From<Integer>` and `From<&Integer>` give the residue class of a non-negative number. What is missing: the statement fails for
negative numbers (`C80_from_integer_wrong`). -/
theorem C80_from_integer_partial (n : Nat) (value : Int) (hn : 0 < n) (h0 : 0 ≤ value) :
    moduloFromInteger n value < n ∧ (moduloFromInteger n value : ZMod n) = value := by
  obtain ⟨m, rfl⟩ := Int.eq_ofNat_of_zero_le h0
  have : moduloFromInteger n (m : Int) = m % n := by
    unfold moduloFromInteger
    rw [← Int.ofNat_tmod, Int.natAbs_natCast]
  rw [this]
  exact ⟨Nat.mod_lt _ hn, by push_cast; exact ZMod.natCast_mod m n⟩

/-- `From<Integer>` is wrong for negative numbers: it is the class of `-value`, so it is the class of `value` only if `N` divides
`2 * value`. -/
theorem C80_from_integer_wrong (n : Nat) (value : Int) (hn : 0 < n) (h0 : value ≤ 0) :
    (moduloFromInteger n value : ZMod n) = -value ∧ ((moduloFromInteger n value : ZMod n) = value ↔ (n : Int) ∣ 2 * value) := by
  have h1 : moduloFromInteger n value = moduloFromInteger n (-value) := by
    unfold moduloFromInteger
    rw [Int.neg_tmod, Int.natAbs_neg]
  have h2 : (moduloFromInteger n value : ZMod n) = -value := by
    rw [h1, (C80_from_integer_partial n (-value) hn (by omega)).2]; push_cast; rfl
  refine ⟨h2, ?_⟩
  rw [h2, ← ZMod.intCast_zmod_eq_zero_iff_dvd]
  push_cast
  constructor
  · intro h
    linear_combination -h
  · intro h
    linear_combination -h

example : moduloFromInteger 5 (-1) = 1 ∧ moduloFromIsize 5 (-1) = 4 := by decide

example : (moduloOps 7 (by decide)).div 3 5 = some (.ok 2) := by decide +kernel

/-! ## C81: the field of four elements -/

/-- `QuaternaryField` presents the field with four elements. -/
theorem C81_quaternary : ∃ v : Quat → GaloisField 2 2, Function.Bijective v ∧ quatOps.Models v := quatOps_models_galois

/-- `α` is a root of `x^2 + x + 1` and `β = α + 1`. -/
theorem C81_alpha : quatOps.add (quatOps.add (quatOps.mul .alpha .alpha) .alpha) .one = .zero ∧ quatOps.add .alpha .one = .beta := by
  decide

/-! ## C82: integers modulo a prime -/

/-- The quotient field of the integers by a prime (of either sign) presents the field with `|p|` elements. -/
theorem C82_integers_mod_prime (m : Int) (hp : Fact m.natAbs.Prime) : (intModOps m).Models (fun a : Int => (a : ZMod m.natAbs)) :=
  intModOps_models m hp

example : ((-7 : Int)).natAbs.Prime := by norm_num
example : (intModOps (-7)).allUnits = [1, 2, 3, 4, 5, 6] := by decide +kernel

/-- A finite field structure lists its elements: `all_elements` contains every element exactly once, so it has `p^k` entries. -/
theorem C82_all_elements {α K : Type} [Field K] (F : FinFieldOps α) (v : α → K) (h : F.Models v) :
    (F.elements.map v).Nodup ∧ (∀ x : K, x ∈ F.elements.map v) ∧ F.elements.length = F.charPow.1 ^ F.charPow.2 :=
  h.elements

end Verif.Rings
