import Verif.Spec.Structure
import Mathlib.RingTheory.Polynomial.Content
import Mathlib.RingTheory.Multiplicity
import Mathlib.RingTheory.UniqueFactorizationDomain.Multiplicity
import Mathlib.RingTheory.Polynomial.UniqueFactorization
import Mathlib.Algebra.Polynomial.Derivative
import Mathlib.Algebra.Squarefree.Basic
import Mathlib.Tactic.LinearCombination

/-!
# The mathematics of Yun's algorithm over a unique factorization domain of characteristic zero
-/

namespace Verif.Rings

open Polynomial

namespace Ufd
variable {A : Type} [CommRing A] [IsDomain A] [UniqueFactorizationMonoid A]

theorem finMult {f π : A} (hπ : Prime π) (hf : f ≠ 0) : FiniteMultiplicity π f := FiniteMultiplicity.of_prime_left hπ hf

theorem pow_dvd_iff {f π : A} (hπ : Prime π) (hf : f ≠ 0) (n : Nat) : π ^ n ∣ f ↔ n ≤ multiplicity π f :=
  (finMult hπ hf).pow_dvd_iff_le_multiplicity

theorem mult_eq_of {f π : A} (hπ : Prime π) (hf : f ≠ 0) (m : Nat) (h : ∀ n, π ^ n ∣ f ↔ n ≤ m) : multiplicity π f = m := by
  apply le_antisymm
  · exact (h _).1 ((pow_dvd_iff hπ hf _).2 le_rfl)
  · exact (pow_dvd_iff hπ hf _).1 ((h _).2 le_rfl)

theorem mult_mul {f g π : A} (hπ : Prime π) (hf : f ≠ 0) (hg : g ≠ 0) :
    multiplicity π (f * g) = multiplicity π f + multiplicity π g :=
  multiplicity_mul hπ (finMult hπ (mul_ne_zero hf hg))

theorem mult_pos_iff {f π : A} (hπ : Prime π) (hf : f ≠ 0) : 0 < multiplicity π f ↔ π ∣ f := by
  rw [← Nat.succ_le_iff, ← pow_dvd_iff hπ hf, Nat.succ_eq_add_one, zero_add, pow_one]

theorem mult_zero_iff {f π : A} (hπ : Prime π) (hf : f ≠ 0) : multiplicity π f = 0 ↔ ¬ π ∣ f := by
  rw [← mult_pos_iff hπ hf]; omega

theorem mult_gcd {d a b π : A} (h : IsGcdOf {a, b} d) (hπ : Prime π) (ha : a ≠ 0) (hb : b ≠ 0) :
    multiplicity π d = min (multiplicity π a) (multiplicity π b) := by
  have hda := h.1 a (by simp)
  have hdb := h.1 b (by simp)
  have hd : d ≠ 0 := fun e => ha (zero_dvd_iff.1 (e ▸ hda))
  refine mult_eq_of hπ hd _ fun n => ?_
  rw [le_min_iff, ← pow_dvd_iff hπ ha, ← pow_dvd_iff hπ hb]
  exact ⟨fun e => ⟨e.trans hda, e.trans hdb⟩, fun e => h.2 _ (by rintro x (rfl | rfl); exacts [e.1, e.2])⟩

theorem dvd_of_mult_le {f g : A} (hf : f ≠ 0) (hg : g ≠ 0)
    (h : ∀ π : A, Prime π → π ∣ f → multiplicity π f ≤ multiplicity π g) : f ∣ g := by
  induction f using WfDvdMonoid.induction_on_irreducible generalizing g with
  | zero => exact absurd rfl hf
  | unit u hu => exact hu.dvd
  | mul a i ha hi ih =>
    have hp := UniqueFactorizationMonoid.irreducible_iff_prime.1 hi
    have h1 : i ∣ g := by
      rw [← mult_pos_iff hp hg]
      refine lt_of_lt_of_le ?_ (h i hp (dvd_mul_right _ _))
      rw [mult_pos_iff hp (mul_ne_zero hi.ne_zero ha)]
      exact dvd_mul_right _ _
    obtain ⟨g', rfl⟩ := h1
    have hg' : g' ≠ 0 := right_ne_zero_of_mul hg
    refine mul_dvd_mul_left i (ih ha hg' fun π hπ hd => ?_)
    have := h π hπ (hd.mul_left _)
    rw [mult_mul hπ hi.ne_zero ha, mult_mul hπ hi.ne_zero hg'] at this
    omega

theorem squarefree_of_mult {f : A} (hf : f ≠ 0) (h : ∀ π : A, Prime π → π ∣ f → multiplicity π f ≤ 1) : Squarefree f := by
  rw [squarefree_iff_irreducible_sq_not_dvd_of_ne_zero hf]
  intro π hπ hd
  have hp := UniqueFactorizationMonoid.irreducible_iff_prime.1 hπ
  have h2 := h π hp ((dvd_mul_right _ _).trans hd)
  rw [← pow_two, pow_dvd_iff hp hf] at hd
  omega

end Ufd

section
variable {R : Type} [CommRing R] [IsDomain R] [UniqueFactorizationMonoid R]

/-- a prime factor of a primitive polynomial is not constant -/
theorem prime_natDegree_pos {f π : R[X]} (hf : f.IsPrimitive) (hπ : Prime π) (hd : π ∣ f) : 0 < π.natDegree := by
  by_contra hc
  have h0 : π.natDegree = 0 := by omega
  rw [natDegree_eq_zero] at h0
  obtain ⟨c, rfl⟩ := h0
  exact hπ.not_unit ((hf c hd).map C)

theorem isUnit_of_prim_natDegree {f : R[X]} (hf : f.IsPrimitive) (h0 : f.natDegree = 0) : IsUnit f := by
  rw [natDegree_eq_zero] at h0
  obtain ⟨c, rfl⟩ := h0
  exact (hf c dvd_rfl).map C

theorem isPrim_of_dvd {p q : R[X]} (hp : p.IsPrimitive) (hd : q ∣ p) : q.IsPrimitive := fun r hr => hp r (hr.trans hd)

theorem prim_mul {p q : R[X]} (hp : p.IsPrimitive) (hq : q.IsPrimitive) : (p * q).IsPrimitive := by
  intro r hr
  by_contra hu
  have h0 : r ≠ 0 := by
    rintro rfl
    rw [C_0, zero_dvd_iff] at hr
    exact mul_ne_zero hp.ne_zero hq.ne_zero hr
  obtain ⟨c, h1, h2⟩ := WfDvdMonoid.exists_irreducible_factor hu h0
  have hc : Prime (C c) := prime_C_iff.2 (UniqueFactorizationMonoid.irreducible_iff_prime.1 h1)
  rcases hc.dvd_mul.1 ((_root_.map_dvd C h2).trans hr) with h | h
  · exact h1.not_isUnit (hp c h)
  · exact h1.not_isUnit (hq c h)

theorem prim_pow {p : R[X]} (hp : p.IsPrimitive) (n : Nat) : (p ^ n).IsPrimitive := by
  induction n with
  | zero => rw [pow_zero]; exact fun r hr => isUnit_C.1 (isUnit_of_dvd_one hr)
  | succ n ih => rw [pow_succ]; exact prim_mul ih hp

variable [CharZero R]

/-- a nonconstant polynomial does not divide its derivative -/
theorem not_dvd_derivative {π : R[X]} (h : 0 < π.natDegree) : ¬ π ∣ derivative π := by
  intro hd
  have h0 : derivative π ≠ 0 := fun e => by
    have := natDegree_eq_zero_of_derivative_eq_zero e
    omega
  have h1 := natDegree_le_of_dvd hd h0
  have h2 := natDegree_derivative_lt (p := π) (by omega)
  omega

/-- differentiation lowers the multiplicity of a nonconstant prime factor by one -/
theorem mult_derivative {π H : R[X]} (hπ : Prime π) (hdeg : 0 < π.natDegree) (hH : H ≠ 0) (hd : π ∣ H) :
    derivative H ≠ 0 ∧ multiplicity π (derivative H) + 1 = multiplicity π H := by
  obtain ⟨Q, hQ, hnd⟩ := (Ufd.finMult hπ hH).exists_eq_pow_mul_and_not_dvd
  have hm := (Ufd.mult_pos_iff hπ hH).2 hd
  generalize multiplicity π H = m at *
  obtain ⟨k, rfl⟩ : ∃ k, m = k + 1 := ⟨m - 1, by omega⟩
  have e : derivative H = π ^ k * (C ((k + 1 : ℕ) : R) * derivative π * Q + π * derivative Q) := by
    rw [hQ, derivative_mul, derivative_pow_succ, pow_succ, Nat.cast_succ]; ring
  have h1 : ¬ π ∣ (C ((k + 1 : ℕ) : R) * derivative π * Q + π * derivative Q) := by
    intro h
    rw [dvd_add_left (dvd_mul_right _ _)] at h
    rcases hπ.dvd_mul.1 h with h | h
    · rcases hπ.dvd_mul.1 h with h | h
      · have := natDegree_le_of_dvd h (by simpa using Nat.cast_add_one_ne_zero k)
        rw [natDegree_C] at this
        omega
      · exact not_dvd_derivative hdeg h
    · exact hnd h
  have h2 : derivative H ≠ 0 := by
    rw [e]
    refine mul_ne_zero (pow_ne_zero _ hπ.ne_zero) fun h => h1 (h ▸ dvd_zero _)
  refine ⟨h2, ?_⟩
  rw [Nat.add_right_cancel_iff]
  refine Ufd.mult_eq_of hπ h2 _ fun n => ?_
  constructor
  · intro h
    by_contra hc
    have h3 : π ^ (k + 1) ∣ derivative H := (pow_dvd_pow _ (by omega)).trans h
    rw [e, pow_succ, mul_dvd_mul_iff_left (pow_ne_zero _ hπ.ne_zero)] at h3
    exact h1 h3
  · intro h
    rw [e]
    exact (pow_dvd_pow _ h).mul_right _

/-- The invariant of Yun's loop: `H * b` is what is left of `f`, with all exponents lowered; `b` is its squarefree part, and `d / b` is
the logarithmic derivative of `H`. -/
structure YunInv (H b d : R[X]) : Prop where
  prim : (H * b).IsPrimitive
  le_one : ∀ π, Prime π → π ∣ b → multiplicity π b ≤ 1
  radical : ∀ π, Prime π → π ∣ H → π ∣ b
  log : d * H = b * derivative H

namespace YunInv
variable {H b d : R[X]} (h : YunInv H b d)
include h

theorem H_ne : H ≠ 0 := left_ne_zero_of_mul h.prim.ne_zero
theorem b_ne : b ≠ 0 := right_ne_zero_of_mul h.prim.ne_zero
theorem primH : H.IsPrimitive := isPrim_of_dvd h.prim (dvd_mul_right _ _)
theorem primB : b.IsPrimitive := isPrim_of_dvd h.prim (dvd_mul_left _ _)

theorem squarefree : Squarefree b := Ufd.squarefree_of_mult h.b_ne h.le_one

theorem d_eq_zero : d = 0 ↔ derivative H = 0 := by
  have := h.log
  constructor
  · rintro rfl
    rw [zero_mul] at this
    exact (mul_eq_zero.1 this.symm).resolve_left h.b_ne
  · intro e
    rw [e, mul_zero] at this
    exact (mul_eq_zero.1 this).resolve_right h.H_ne

open scoped Classical in
/-- the multiplicity of a factor of `b` in `gcd(b, d)` -/
theorem mult_gcd {g π : R[X]} (hg : IsGcdOf {b, d} g) (hπ : Prime π) (hb : π ∣ b) :
    multiplicity π g = if π ∣ H then 0 else 1 := by
  have hdeg := prime_natDegree_pos h.primB hπ hb
  have hb1 : multiplicity π b = 1 := by
    have := h.le_one π hπ hb
    have := (Ufd.mult_pos_iff hπ h.b_ne).2 hb
    omega
  have hgb := hg.1 b (by simp)
  have hg0 : g ≠ 0 := fun e => h.b_ne (zero_dvd_iff.1 (e ▸ hgb))
  split
  · rename_i hH
    obtain ⟨h1, h2⟩ := mult_derivative hπ hdeg h.H_ne hH
    have hd0 : d ≠ 0 := fun e => h1 (h.d_eq_zero.1 e)
    have h3 := congrArg (multiplicity π) h.log
    rw [Ufd.mult_mul hπ hd0 h.H_ne, Ufd.mult_mul hπ h.b_ne h1, hb1] at h3
    rw [Ufd.mult_gcd hg hπ h.b_ne hd0, hb1]
    omega
  · rename_i hH
    by_cases hd0 : d = 0
    · have : Associated g b := associated_of_dvd_dvd hgb (hg.2 b (by rintro x (rfl | rfl); exacts [dvd_rfl, hd0 ▸ dvd_zero _]))
      rw [multiplicity_eq_of_associated_right this, hb1]
    · have h1 : derivative H ≠ 0 := fun e => hd0 (h.d_eq_zero.2 e)
      have h3 := congrArg (multiplicity π) h.log
      rw [Ufd.mult_mul hπ hd0 h.H_ne, Ufd.mult_mul hπ h.b_ne h1, hb1, (Ufd.mult_zero_iff hπ h.H_ne).2 hH] at h3
      rw [Ufd.mult_gcd hg hπ h.b_ne hd0, hb1]
      omega

/-- one turn of the loop -/
theorem step {g b' c' : R[X]} (hg : IsGcdOf {b, d} g) (hb : b = b' * g) (hc : d = c' * g) :
    ∃ H', H = H' * b' ∧ YunInv H' b' (c' - derivative b') := by
  have hb0 := h.b_ne
  have hg0 : g ≠ 0 := fun e => hb0 (by rw [hb, e, mul_zero])
  have hb'0 : b' ≠ 0 := fun e => hb0 (by rw [hb, e, zero_mul])
  have hbd : b' ∣ b := hb ▸ dvd_mul_right _ _
  have hgd : g ∣ b := hb ▸ dvd_mul_left _ _
  have hb1 (π : R[X]) (hπ : Prime π) (hd : π ∣ b) : multiplicity π b = 1 := by
    have := h.le_one π hπ hd
    have := (Ufd.mult_pos_iff hπ hb0).2 hd
    omega
  have hm (π : R[X]) (hπ : Prime π) (hd : π ∣ b) : multiplicity π b' + multiplicity π g = 1 := by
    rw [← Ufd.mult_mul hπ hb'0 hg0, ← hb]; exact hb1 π hπ hd
  have hH : b' ∣ H := by
    refine Ufd.dvd_of_mult_le hb'0 h.H_ne fun π hπ hd => ?_
    have h1 := hm π hπ (hd.trans hbd)
    have h2 := h.mult_gcd hg hπ (hd.trans hbd)
    have h3 := (Ufd.mult_pos_iff hπ hb'0).2 hd
    by_cases hH : π ∣ H
    · have := (Ufd.mult_pos_iff hπ h.H_ne).2 hH
      omega
    · rw [if_neg hH] at h2; omega
  obtain ⟨H', hH'⟩ := hH
  rw [mul_comm] at hH'
  refine ⟨H', hH', ?_, ?_, ?_, ?_⟩
  · rw [← hH']; exact h.primH
  · intro π hπ hd
    have := hm π hπ (hd.trans hbd)
    omega
  · intro π hπ hd
    have hdH : π ∣ H := hH' ▸ hd.mul_right _
    have hdb := h.radical π hπ hdH
    have h1 := hm π hπ hdb
    have h2 := h.mult_gcd hg hπ hdb
    rw [if_pos hdH] at h2
    rw [← Ufd.mult_pos_iff hπ hb'0]; omega
  · have hl := h.log
    rw [hb, hc] at hl
    have h1 : c' * H = b' * derivative H := mul_right_cancel₀ hg0 (by linear_combination hl)
    rw [hH', derivative_mul] at h1
    exact mul_right_cancel₀ hb'0 (by linear_combination h1)

theorem natDegree_b_pos (i : Nat) (hf : 0 < (H * b ^ i).natDegree) : 0 < b.natDegree := by
  by_contra hc
  have hb : b.natDegree = 0 := by omega
  rw [natDegree_mul h.H_ne (pow_ne_zero _ h.b_ne), natDegree_pow, hb, mul_zero, add_zero] at hf
  have hnu : ¬ IsUnit H := fun e => by rw [natDegree_eq_zero_of_isUnit e] at hf; omega
  obtain ⟨π, h1, h2⟩ := WfDvdMonoid.exists_irreducible_factor hnu h.H_ne
  have hp := UniqueFactorizationMonoid.irreducible_iff_prime.1 h1
  have h3 := prime_natDegree_pos h.primH hp h2
  have h4 := natDegree_le_of_dvd (h.radical π hp h2) h.b_ne
  omega

end YunInv

/-- the invariant before the loop -/
theorem yunInv_init {f g b c : R[X]} (hf : f.IsPrimitive) (hg : IsGcdOf {f, derivative f} g) (hb : f = b * g)
    (hc : derivative f = c * g) : YunInv g b (c - derivative b) := by
  have hf0 := hf.ne_zero
  have hg0 : g ≠ 0 := fun e => hf0 (by rw [hb, e, mul_zero])
  have hb0 : b ≠ 0 := fun e => hf0 (by rw [hb, e, zero_mul])
  have key (π : R[X]) (hπ : Prime π) (hd : π ∣ f) : multiplicity π g + 1 = multiplicity π f := by
    obtain ⟨h1, h2⟩ := mult_derivative hπ (prime_natDegree_pos hf hπ hd) hf0 hd
    rw [Ufd.mult_gcd hg hπ hf0 h1]; omega
  have hm (π : R[X]) (hπ : Prime π) (hd : π ∣ f) : multiplicity π b = 1 := by
    have h1 := key π hπ hd
    have h2 := Ufd.mult_mul hπ hb0 hg0
    rw [← hb] at h2
    omega
  refine ⟨by rw [mul_comm, ← hb]; exact hf, ?_, ?_, ?_⟩
  · intro π hπ hd
    exact (hm π hπ (hb ▸ hd.mul_right _)).le
  · intro π hπ hd
    rw [← Ufd.mult_pos_iff hπ hb0, hm π hπ (hb ▸ hd.mul_left _)]; omega
  · have h1 := congrArg derivative hb
    rw [derivative_mul, hc] at h1
    linear_combination h1

end
end Verif.Rings
