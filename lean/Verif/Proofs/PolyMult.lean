import Mathlib.FieldTheory.Perfect
import Mathlib.FieldTheory.Separable
import Mathlib.RingTheory.Multiplicity
import Mathlib.RingTheory.UniqueFactorizationDomain.Multiplicity
import Mathlib.FieldTheory.Finite.Basic
import Mathlib.Algebra.Polynomial.Expand
import Mathlib.Algebra.Polynomial.FieldDivision

/-!
# Multiplicities of irreducible factors and derivatives
-/

namespace Verif.Rings

open Polynomial

variable {K : Type} [Field K]

theorem finMult {f π : K[X]} (hπ : Irreducible π) (hf : f ≠ 0) : FiniteMultiplicity π f :=
  FiniteMultiplicity.of_prime_left hπ.prime hf

/-- the defining property of the multiplicity -/
theorem pow_dvd_iff_mult {f π : K[X]} (hπ : Irreducible π) (hf : f ≠ 0) (n : Nat) : π ^ n ∣ f ↔ n ≤ multiplicity π f :=
  (finMult hπ hf).pow_dvd_iff_le_multiplicity

theorem mult_eq_of {f π : K[X]} (hπ : Irreducible π) (hf : f ≠ 0) (m : Nat) (h : ∀ n, π ^ n ∣ f ↔ n ≤ m) : multiplicity π f = m := by
  apply le_antisymm
  · exact (h _).1 ((pow_dvd_iff_mult hπ hf _).2 le_rfl)
  · exact (pow_dvd_iff_mult hπ hf _).1 ((h _).2 le_rfl)

theorem mult_mul {f g π : K[X]} (hπ : Irreducible π) (hf : f ≠ 0) (hg : g ≠ 0) :
    multiplicity π (f * g) = multiplicity π f + multiplicity π g :=
  multiplicity_mul hπ.prime (finMult hπ (mul_ne_zero hf hg))

theorem mult_pow {f π : K[X]} (hπ : Irreducible π) (hf : f ≠ 0) (n : Nat) : multiplicity π (f ^ n) = n * multiplicity π f := by
  induction n with
  | zero =>
    rw [pow_zero, zero_mul]
    refine mult_eq_of hπ one_ne_zero 0 fun n => ⟨fun h => ?_, fun h => ?_⟩
    · by_contra hc
      exact hπ.not_isUnit (isUnit_of_dvd_one ((dvd_pow_self π (by omega)).trans h))
    · rw [Nat.le_zero.1 h, pow_zero]
  | succ n ih => rw [pow_succ, mult_mul hπ (pow_ne_zero _ hf) hf, ih]; ring

theorem mult_one {π : K[X]} (hπ : Irreducible π) : multiplicity π (1 : K[X]) = 0 := by
  simpa using mult_pow hπ (one_ne_zero (α := K[X])) 0

theorem mult_pos_iff {f π : K[X]} (hπ : Irreducible π) (hf : f ≠ 0) : 0 < multiplicity π f ↔ π ∣ f := by
  rw [← Nat.succ_le_iff, ← pow_dvd_iff_mult hπ hf, Nat.succ_eq_add_one, zero_add, pow_one]

theorem mult_zero_iff {f π : K[X]} (hπ : Irreducible π) (hf : f ≠ 0) : multiplicity π f = 0 ↔ ¬ π ∣ f := by
  rw [← mult_pos_iff hπ hf]; omega

/-- `d` is a greatest common divisor of `a` and `b` -/
def IsPolyGcd (d a b : K[X]) : Prop := ∀ e, e ∣ d ↔ e ∣ a ∧ e ∣ b

theorem IsPolyGcd.mult {d a b π : K[X]} (h : IsPolyGcd d a b) (hπ : Irreducible π) (ha : a ≠ 0) (hb : b ≠ 0) :
    multiplicity π d = min (multiplicity π a) (multiplicity π b) := by
  have hd : d ≠ 0 := fun e => ha (zero_dvd_iff.1 (e ▸ ((h d).1 dvd_rfl).1))
  refine mult_eq_of hπ hd _ fun n => ?_
  rw [h, pow_dvd_iff_mult hπ ha, pow_dvd_iff_mult hπ hb, le_min_iff]

theorem dvd_of_mult_le {f g : K[X]} (hf : f ≠ 0) (hg : g ≠ 0)
    (h : ∀ π : K[X], Irreducible π → multiplicity π f ≤ multiplicity π g) : f ∣ g := by
  induction f using WfDvdMonoid.induction_on_irreducible generalizing g with
  | zero => exact absurd rfl hf
  | unit u hu => exact hu.dvd
  | mul a i ha hi ih =>
    have h1 : i ∣ g := by
      rw [← mult_pos_iff hi hg]
      refine lt_of_lt_of_le ?_ (h i hi)
      rw [mult_pos_iff hi (mul_ne_zero hi.ne_zero ha)]
      exact dvd_mul_right _ _
    obtain ⟨g', rfl⟩ := h1
    have hg' : g' ≠ 0 := right_ne_zero_of_mul hg
    refine mul_dvd_mul_left i (ih ha hg' fun π hπ => ?_)
    have := h π hπ
    rw [mult_mul hπ hi.ne_zero ha, mult_mul hπ hi.ne_zero hg'] at this
    omega

theorem eq_of_mult {f g : K[X]} (hf : f.Monic) (hg : g.Monic)
    (h : ∀ π : K[X], Irreducible π → multiplicity π f = multiplicity π g) : f = g :=
  eq_of_monic_of_associated hf hg (associated_of_dvd_dvd (dvd_of_mult_le hf.ne_zero hg.ne_zero fun π hπ => (h π hπ).le)
    (dvd_of_mult_le hg.ne_zero hf.ne_zero fun π hπ => (h π hπ).ge))

theorem squarefree_of_mult {f : K[X]} (hf : f ≠ 0) (h : ∀ π : K[X], Irreducible π → multiplicity π f ≤ 1) : Squarefree f := by
  rw [squarefree_iff_irreducible_sq_not_dvd_of_ne_zero hf]
  intro π hπ hd
  rw [← pow_two, pow_dvd_iff_mult hπ hf] at hd
  have := h π hπ
  omega

theorem Squarefree.mult_le {f π : K[X]} (hf0 : f ≠ 0) (hf : Squarefree f) (hπ : Irreducible π) : multiplicity π f ≤ 1 := by
  by_contra hc
  have : π ^ 2 ∣ f := (pow_dvd_iff_mult hπ hf0 2).2 (by omega)
  rw [pow_two] at this
  exact hπ.not_isUnit (hf π this)

theorem isCoprime_of_mult {f g : K[X]} (hf : f ≠ 0) (hg : g ≠ 0)
    (h : ∀ π : K[X], Irreducible π → multiplicity π f = 0 ∨ multiplicity π g = 0) : IsCoprime f g := by
  refine isCoprime_of_irreducible_dvd (fun e => hf e.1) fun π hπ h1 h2 => ?_
  rw [← mult_pos_iff hπ hf] at h1
  rw [← mult_pos_iff hπ hg] at h2
  rcases h π hπ with e | e <;> omega

/-- the multiplicity in `gcd(f, f')` over a perfect field of characteristic `p` -/
theorem mult_gcd_derivative [PerfectField K] (p : Nat) [CharP K p] {f d π : K[X]} (hf : f ≠ 0) (hd : IsPolyGcd d f (derivative f))
    (hπ : Irreducible π) :
    multiplicity π d = if p ∣ multiplicity π f then multiplicity π f else multiplicity π f - 1 := by
  have hd0 : d ≠ 0 := fun e => hf (zero_dvd_iff.1 (e ▸ ((hd d).1 dvd_rfl).1))
  obtain ⟨s, hs⟩ := (pow_dvd_iff_mult hπ hf _).2 le_rfl
  have hsn : ¬ π ∣ s := by
    rintro ⟨t, rfl⟩
    have : π ^ (multiplicity π f + 1) ∣ f := ⟨t, by rw [pow_succ, mul_assoc, ← hs]⟩
    rw [pow_dvd_iff_mult hπ hf] at this
    omega
  set m := multiplicity π f with hm
  have hder : derivative f = C (m : K) * π ^ (m - 1) * derivative π * s + π ^ m * derivative s := by
    conv_lhs => rw [hs]
    rw [derivative_mul, derivative_pow]
  have hsep : IsCoprime π (derivative π) := PerfectField.separable_of_irreducible hπ
  refine mult_eq_of hπ hd0 _ fun n => ?_
  rw [hd, pow_dvd_iff_mult hπ hf, ← hm]
  split
  · rename_i hpm
    rw [(CharP.cast_eq_zero_iff K p m).2 hpm] at hder
    simp only [map_zero, zero_mul, zero_add] at hder
    refine ⟨fun h => h.1, fun h => ⟨h, ?_⟩⟩
    rw [hder]
    exact (pow_dvd_pow π h).mul_right _
  · rename_i hpm
    have hmk : (m : K) ≠ 0 := fun e => hpm ((CharP.cast_eq_zero_iff K p m).1 e)
    have hm0 : m ≠ 0 := fun e => hpm (e ▸ dvd_zero p)
    constructor
    · rintro ⟨h1, h2⟩
      by_contra hc
      have hn : n = m := by omega
      rw [hn, hder] at h2
      have h3 : π ^ m ∣ C (m : K) * π ^ (m - 1) * derivative π * s := (dvd_add_left (dvd_mul_right _ _)).1 h2
      have h4 : π ^ (m - 1) * π ∣ π ^ (m - 1) * (C (m : K) * (derivative π * s)) := by
        rw [← pow_succ, Nat.sub_add_cancel (by omega)]
        convert h3 using 1
        ring
      have h5 := (mul_dvd_mul_iff_left (pow_ne_zero (m - 1) hπ.ne_zero)).1 h4
      have hu : IsUnit (C (m : K)) := isUnit_C.2 hmk.isUnit
      rw [IsUnit.dvd_mul_left hu] at h5
      exact hsn (hsep.dvd_of_dvd_mul_left h5)
    · intro h
      refine ⟨by omega, ?_⟩
      rw [hder]
      refine dvd_add ?_ ((pow_dvd_pow π (by omega)).mul_right _)
      exact (((pow_dvd_pow π h).mul_left _).mul_right _).mul_right _

/-- a polynomial all of whose multiplicities are divisible by the characteristic has derivative zero -/
theorem derivative_eq_zero_of_mult [PerfectField K] (p : Nat) [CharP K p] {f : K[X]} (hf : f ≠ 0)
    (h : ∀ π : K[X], Irreducible π → p ∣ multiplicity π f) : derivative f = 0 := by
  by_contra hne
  classical
  have hg : IsPolyGcd (EuclideanDomain.gcd f (derivative f)) f (derivative f) := fun e =>
    ⟨fun h => ⟨h.trans (EuclideanDomain.gcd_dvd_left _ _), h.trans (EuclideanDomain.gcd_dvd_right _ _)⟩,
      fun h => EuclideanDomain.dvd_gcd h.1 h.2⟩
  have h1 : f ∣ derivative f := by
    refine dvd_of_mult_le hf hne fun π hπ => ?_
    have h2 := mult_gcd_derivative p hf hg hπ
    rw [if_pos (h π hπ)] at h2
    rw [hg.mult hπ hf hne] at h2
    omega
  have h3 := degree_le_of_dvd h1 hne
  exact absurd (degree_derivative_lt hf) (not_lt.2 h3)

/-- the `p`-th root over a field with `p` elements -/
theorem contract_pow_card [Finite K] (p : Nat) [CharP K p] (hp : p ≠ 0) (hc : Nat.card K = p) {f : K[X]} (h : derivative f = 0) :
    (contract p f) ^ p = f := by
  haveI : Fintype K := Fintype.ofFinite K
  have h1 := expand_contract p h hp
  have h2 := FiniteField.expand_card (contract p f)
  rw [← Nat.card_eq_fintype_card, hc] at h2
  rw [← h2, h1]

end Verif.Rings
