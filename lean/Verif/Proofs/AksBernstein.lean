import Verif.Proofs.AksGood
import Verif.Proofs.AksHexagon
import Mathlib.RingTheory.RootsOfUnity.AlgebraicallyClosed
import Mathlib.FieldTheory.IsAlgClosed.AlgebraicClosure
import Mathlib.Algebra.CharP.Algebra
import Mathlib.Algebra.CharP.Frobenius
import Mathlib.Data.ZMod.Units

/-!
# Bernstein's criterion for prime powers (<https://cr.yp.to/papers/aks.pdf>)
-/

namespace Verif.Aks

open Finset

/-- the hypotheses that the tests of the algorithm establish -/
structure Tests (n r : ℕ) (S : Finset ℕ) : Prop where
  two_le : ∀ b ∈ S, 2 ≤ b
  coprime : ∀ b ∈ S, Nat.Coprime n b
  product : ∀ b ∈ S, ∀ c ∈ S, Nat.Coprime n (b * c - 1)
  difference : ∀ b ∈ S, ∀ c ∈ S, b < c → Nat.Coprime n (c - b)
  fermat : ∀ b ∈ S, b ^ (n - 1) % n = 1
  identity : ∀ b ∈ S, ∀ (K : Type) [Field K], (n : K) = 0 → ∀ η : K, η ^ r = 1 → (η + b) ^ n = η ^ n + b

section
variable {K : Type} [Field K] {p n r : ℕ} [hp : Fact p.Prime] [CharP K p] {S : Finset ℕ}

open Classical in
/-- the constants: the elements of `S` and their inverses -/
noncomputable def consts (K : Type) [Field K] (S : Finset ℕ) : Finset K := S.image (fun b : ℕ => (b : K)) ∪ S.image fun b : ℕ => (b : K)⁻¹

theorem mem_consts {c : K} : c ∈ consts K S ↔ ∃ b ∈ S, c = b ∨ c = (b : K)⁻¹ := by
  classical
  simp only [consts, mem_union, mem_image]
  constructor
  · rintro (⟨b, hb, rfl⟩ | ⟨b, hb, rfl⟩)
    · exact ⟨b, hb, Or.inl rfl⟩
    · exact ⟨b, hb, Or.inr rfl⟩
  · rintro ⟨b, hb, rfl | rfl⟩
    · exact Or.inl ⟨b, hb, rfl⟩
    · exact Or.inr ⟨b, hb, rfl⟩

theorem cast_ne_zero' (hpn : p ∣ n) {m : ℕ} (h : Nat.Coprime n m) : (m : K) ≠ 0 := by
  rw [Ne, CharP.cast_eq_zero_iff K p]
  intro hd
  have : p ∣ Nat.gcd n m := Nat.dvd_gcd hpn hd
  rw [h] at this
  exact hp.out.one_lt.ne' (Nat.dvd_one.1 this)

theorem card_consts (hpn : p ∣ n) (h : Tests n r S) : #(consts K S) = 2 * #S := by
  classical
  have inj : Set.InjOn (fun b : ℕ => (b : K)) S := by
    have key : ∀ b ∈ S, ∀ c ∈ S, b < c → (b : K) ≠ (c : K) := by
      intro b hb c hc hlt e
      apply cast_ne_zero' (K := K) (p := p) hpn (h.difference b hb c hc hlt)
      rw [Nat.cast_sub hlt.le, e, sub_self]
    intro b hb c hc e
    by_contra hne
    rcases lt_or_gt_of_ne hne with h1 | h1
    · exact key b hb c hc h1 e
    · exact key c hc b hb h1 e.symm
  rw [consts, card_union_of_disjoint, card_image_of_injOn inj, card_image_of_injOn, two_mul]
  · intro b hb c hc e
    exact inj hb hc (inv_injective e)
  · rw [disjoint_left]
    intro x hx hy
    obtain ⟨b, hb, rfl⟩ := mem_image.1 hx
    obtain ⟨c, hc, e⟩ := mem_image.1 hy
    have hc0 : (c : K) ≠ 0 := cast_ne_zero' (p := p) hpn (h.coprime c hc)
    apply cast_ne_zero' (K := K) (p := p) hpn (h.product b hb c hc)
    have h1 : 1 ≤ b * c := Nat.mul_pos (by have := h.two_le b hb; omega) (by have := h.two_le c hc; omega)
    rw [Nat.cast_sub h1, Nat.cast_mul, ← e, Nat.cast_one, inv_mul_cancel₀ hc0, sub_self]

theorem cast_pow_sub (hn : 1 ≤ n) (hpn : p ∣ n) (h : Tests n r S) {b : ℕ} (hb : b ∈ S) : (b : K) ^ (n - 1) = 1 := by
  have h1 : (n : K) = 0 := (CharP.cast_eq_zero_iff K p n).2 hpn
  have h2 := Nat.div_add_mod (b ^ (n - 1)) n
  rw [h.fermat b hb] at h2
  rw [← Nat.cast_pow, ← h2]
  simp [h1]

theorem good_n (hn : 1 ≤ n) (hpn : p ∣ n) (h : Tests n r S) (hr : r ≠ 0) : Good r (consts K S) n := by
  have h1 : (n : K) = 0 := (CharP.cast_eq_zero_iff K p n).2 hpn
  intro c hc η hη
  have hη0 : η ≠ 0 := by
    rintro rfl
    rw [zero_pow hr] at hη
    exact zero_ne_one hη
  obtain ⟨b, hb, rfl | rfl⟩ := mem_consts.1 hc
  · exact h.identity b hb K h1 η hη
  · have hb0 : (b : K) ≠ 0 := cast_ne_zero' (p := p) hpn (h.coprime b hb)
    have hinv : (η⁻¹) ^ r = 1 := by rw [inv_pow, hη, inv_one]
    have h2 := h.identity b hb K h1 η⁻¹ hinv
    have h3 : η + (b : K)⁻¹ = (b : K)⁻¹ * η * (η⁻¹ + b) := by field_simp; ring
    have h4 : (b : K) ^ n = b := by
      have := cast_pow_sub (K := K) (p := p) hn hpn h hb
      rw [← Nat.sub_add_cancel hn, pow_succ, this, one_mul]
    rw [h3, mul_pow, mul_pow, h2, inv_pow, h4, inv_pow]
    field_simp
    ring

theorem pow_p_consts {c : K} (hc : c ∈ consts K S) : c ^ p = c := by
  have h1 : ∀ b : ℕ, (b : K) ^ p = b := fun b => map_natCast (frobenius K p) b
  obtain ⟨b, -, rfl | rfl⟩ := mem_consts.1 hc
  · exact h1 b
  · rw [inv_pow, h1]

theorem good_p : Good r (consts K S) p := by
  intro c hc η _
  rw [add_pow_char, pow_p_consts hc]

theorem good_q {q : ℕ} (h : Good r (consts K S) (p * q)) : Good r (consts K S) q := by
  intro c hc η hη
  apply frobenius_inj K p
  simp only [frobenius_def]
  rw [← pow_mul, mul_comm q p, h c hc η hη, add_pow_char, pow_p_consts hc, ← pow_mul, mul_comm q p]

theorem add_ne_zero' (hr : 3 ≤ r) (hn : 1 ≤ n) (hpn : p ∣ n) (h : Tests n r S) (hr2 : r.Coprime 2) (hnr : n % r ≠ 1) {ζ : K} (hζ : IsPrimitiveRoot ζ r) {c : K} (hc : c ∈ consts K S) :
    ζ + c ≠ 0 := by
  intro h0
  have h1 : ζ = -c := eq_neg_of_add_eq_zero_left h0
  have h2 : c ^ (n - 1) = 1 := by
    obtain ⟨b, hb, rfl | rfl⟩ := mem_consts.1 hc
    · exact cast_pow_sub (p := p) hn hpn h hb
    · rw [inv_pow, cast_pow_sub (p := p) hn hpn h hb, inv_one]
  have h3 : ζ ^ ((n - 1) * 2) = 1 := by rw [h1, pow_mul, neg_pow, h2, mul_one, ← pow_mul, mul_comm, pow_mul, neg_one_sq, one_pow]
  have h4 := hζ.dvd_of_pow_eq_one _ h3
  have h5 : r ∣ n - 1 := hr2.dvd_of_dvd_mul_right h4
  apply hnr
  obtain ⟨k, hk⟩ := h5
  rw [show n = 1 + r * k by omega, Nat.add_mul_mod_self_left, Nat.mod_eq_of_lt (by omega)]
end

/-- **Bernstein's criterion**: `n` is a power of each of its prime divisors. -/
theorem prime_power {n r i d j d' M : ℕ} {S : Finset ℕ} (hr : r.Prime) (hr3 : 3 ≤ r) (hn : 2 ≤ n) (hgen : ∀ a, a % r ≠ 0 → ∃ k, n ^ k % r = a % r)
    (h : Tests n r S) (hd : d + d' < r - 1) (hcount : n ^ M ≤ (2 * #S).choose i * d.choose i * (2 * #S - i).choose j * d'.choose j)
    (hM0 : 1 ≤ M) (hM : r - 1 ≤ 3 * M ^ 2 + 1) {p : ℕ} (hp : p.Prime) (hpn : p ∣ n) : ∃ k, n = p ^ k := by
  have hnr0 : n % r ≠ 0 := by
    intro h0
    obtain ⟨k, hk⟩ := hgen 2 (by rw [Nat.mod_eq_of_lt (by omega)]; omega)
    rw [Nat.mod_eq_of_lt (show 2 < r by omega)] at hk
    rcases k with _ | k
    · rw [pow_zero, Nat.mod_eq_of_lt (by omega)] at hk
      omega
    · rw [pow_succ, Nat.mul_mod, h0, mul_zero, Nat.zero_mod] at hk
      omega
  have hnr1 : n % r ≠ 1 := by
    intro h1
    obtain ⟨k, hk⟩ := hgen 2 (by rw [Nat.mod_eq_of_lt (by omega)]; omega)
    rw [Nat.mod_eq_of_lt (show 2 < r by omega), Nat.pow_mod, h1, one_pow, Nat.mod_eq_of_lt (by omega)] at hk
    omega
  haveI : Fact p.Prime := ⟨hp⟩
  haveI : Fact r.Prime := ⟨hr⟩
  let K := AlgebraicClosure (ZMod p)
  haveI : CharP K p := charP_of_injective_algebraMap (algebraMap (ZMod p) K).injective p
  obtain ⟨q, hq⟩ := hpn
  have hrp : ¬ r ∣ p := fun hdvd => hnr0 (Nat.mod_eq_zero_of_dvd (hq ▸ hdvd.mul_right q))
  have hrq : ¬ r ∣ q := fun hdvd => hnr0 (Nat.mod_eq_zero_of_dvd (hq ▸ hdvd.mul_left p))
  haveI : NeZero (r : ZMod p) := ⟨by
    rw [Ne, ZMod.natCast_eq_zero_iff]
    intro hdvd
    exact hrp ((Nat.prime_dvd_prime_iff_eq hp hr).1 hdvd ▸ dvd_rfl)⟩
  obtain ⟨ζ, hζ⟩ := HasEnoughRootsOfUnity.exists_primitiveRoot K r
  have hpn : p ∣ n := ⟨q, hq⟩
  have gn : Good r (consts K S) n := good_n (p := p) (by omega) hpn h hr.ne_zero
  have gp : Good r (consts K S) p := good_p
  have gq : Good r (consts K S) q := good_q (hq ▸ gn)
  have hr2 : r.Coprime 2 := (Nat.coprime_primes hr Nat.prime_two).2 (by omega)
  have h0 : ∀ c ∈ consts K S, ζ + c ≠ 0 := fun c hc => add_ne_zero' (p := p) hr3 (by omega) hpn h hr2 hnr1 hζ hc
  have key : ∀ m m' : ℕ, Good r (consts K S) m → Good r (consts K S) m' → m % r = m' % r → 0 < m' → m ≤ n ^ M → ¬ m' < m := by
    intro m m' hm hm' hmod h1 h2 hlt
    have h3 := card_le_sub (by omega) hζ hgen gn h0 hd hm hm' hlt hmod (i := i) (j := j)
    rw [card_family, card_consts (p := p) hpn h] at h3
    omega
  have hp2 := hp.two_le
  have hq0 : 0 < q := by
    rcases Nat.eq_zero_or_pos q with e | e
    · subst e; omega
    · exact e
  by_cases hq1 : q = 1
  · exact ⟨1, by rw [hq, hq1, mul_one, pow_one]⟩
  have hq2 : 2 ≤ q := by omega
  have lp : 0 < Real.log p := Real.log_pos (by exact_mod_cast hp2)
  have lq : 0 < Real.log q := Real.log_pos (by exact_mod_cast hq2)
  have ln : Real.log n = Real.log p + Real.log q := by
    rw [hq, Nat.cast_mul, Real.log_mul (by positivity) (by positivity)]
  let P : (ZMod r)ˣ := ZMod.unitOfCoprime p ((Nat.Prime.coprime_iff_not_dvd hr).2 hrp).symm
  let Q : (ZMod r)ˣ := ZMod.unitOfCoprime q ((Nat.Prime.coprime_iff_not_dvd hr).2 hrq).symm
  have hPQ : ∀ a b c e : ℕ, P ^ a * Q ^ b = P ^ c * Q ^ e → (p ^ a * q ^ b) % r = (p ^ c * q ^ e) % r := by
    intro a b c e h1
    have h2 := congrArg (Units.val) h1
    simp only [Units.val_mul, Units.val_pow_eq_pow_val, P, Q, ZMod.coe_unitOfCoprime] at h2
    apply (ZMod.natCast_eq_natCast_iff' _ _ r).1
    push_cast
    exact h2
  obtain ⟨a, b, hab, hne, hhex⟩ := exists_small' P Q (M := M) hM0 lp lq (by rw [ZMod.card_units]; exact hM)
  rw [← ln] at hhex
  obtain ⟨x1, x2, x3⟩ := hex_le.1 hhex
  have bound : ∀ u v : ℕ, (u : ℝ) * Real.log p + v * Real.log q ≤ M * Real.log n → p ^ u * q ^ v ≤ n ^ M := by
    intro u v h1
    have h2 : Real.log ((p ^ u * q ^ v : ℕ) : ℝ) ≤ Real.log ((n ^ M : ℕ) : ℝ) := by
      push_cast
      rw [Real.log_mul (by positivity) (by positivity), Real.log_pow, Real.log_pow, Real.log_pow]
      exact h1
    have h3 := (Real.log_le_log_iff (by positivity) (by positivity)).1 h2
    exact_mod_cast h3
  have gpq : ∀ u v : ℕ, Good r (consts K S) (p ^ u * q ^ v) := fun u v => (gp.pow u).mul (gq.pow v)
  -- both exponents of one sign
  have same : ∀ u v : ℕ, P ^ u * Q ^ v = 1 → ¬ (u = 0 ∧ v = 0) → (u : ℝ) * Real.log p + v * Real.log q ≤ M * Real.log n → False := by
    intro u v h1 h2 h3
    refine key (p ^ u * q ^ v) 1 (gpq u v) Good.one ?_ one_pos (bound u v h3) ?_
    · simpa using hPQ u v 0 0 (by simpa using h1)
    · rcases Nat.eq_zero_or_pos u with e | e
      · have hv : v ≠ 0 := fun hv => h2 ⟨e, hv⟩
        subst e
        rw [pow_zero, one_mul]
        exact Nat.one_lt_pow hv (by omega)
      · exact lt_of_lt_of_le (Nat.one_lt_pow (by omega) (by omega)) (Nat.le_mul_of_pos_right _ (by positivity))
  -- exponents of different signs
  have diff : ∀ u v : ℕ, P ^ u = Q ^ v → 0 < v → (u : ℝ) * Real.log p ≤ M * Real.log n → (v : ℝ) * Real.log q ≤ M * Real.log n → ∃ k, n = p ^ k := by
    intro u v h1 h2 h3 h4
    have hmod : p ^ u % r = q ^ v % r := by simpa using hPQ u 0 0 v (by simpa using h1)
    have b1 : p ^ u ≤ n ^ M := by simpa using bound u 0 (by simpa using h3)
    have b2 : q ^ v ≤ n ^ M := by simpa using bound 0 v (by simpa using h4)
    have e : p ^ u = q ^ v := by
      rcases lt_trichotomy (p ^ u) (q ^ v) with e | e | e
      · exact absurd e (key _ _ (gq.pow v) (gp.pow u) hmod.symm (by positivity) b2)
      · exact e
      · exact absurd e (key _ _ (gp.pow u) (gq.pow v) hmod (by positivity) b1)
    have hdvd : q ∣ p ^ u := e ▸ dvd_pow_self q (by omega)
    obtain ⟨k, -, hk⟩ := (Nat.dvd_prime_pow hp).1 hdvd
    exact ⟨k + 1, by rw [hq, hk, pow_succ, mul_comm]⟩
  rcases le_or_gt 0 a with ha | ha <;> rcases le_or_gt 0 b with hb | hb
  · exfalso
    obtain ⟨u, rfl⟩ := Int.eq_ofNat_of_zero_le ha
    obtain ⟨v, rfl⟩ := Int.eq_ofNat_of_zero_le hb
    refine same u v (by exact_mod_cast hab) (by exact_mod_cast hne) ?_
    have := (abs_le.1 x3).2
    exact_mod_cast this
  · obtain ⟨u, rfl⟩ := Int.eq_ofNat_of_zero_le ha
    obtain ⟨v, rfl⟩ : ∃ v : ℕ, b = -v := ⟨b.natAbs, by omega⟩
    refine diff u v ?_ (by omega) ?_ ?_
    · rw [zpow_neg, mul_inv_eq_one] at hab
      exact_mod_cast hab
    · have := (abs_le.1 x1).2
      exact_mod_cast this
    · have := (abs_le.1 x2).1
      push_cast at this
      linarith
  · obtain ⟨u, rfl⟩ : ∃ u : ℕ, a = -u := ⟨a.natAbs, by omega⟩
    obtain ⟨v, rfl⟩ := Int.eq_ofNat_of_zero_le hb
    rcases Nat.eq_zero_or_pos v with e | e
    · subst e
      exfalso
      refine same u 0 ?_ (by omega) ?_
      · rw [zpow_neg] at hab
        simp only [Int.ofNat_eq_natCast, Nat.cast_zero, zpow_zero, mul_one, inv_eq_one] at hab
        rw [pow_zero, mul_one]
        exact_mod_cast hab
      · have := (abs_le.1 x1).1
        push_cast at this ⊢
        linarith
    · refine diff u v ?_ e ?_ ?_
      · rw [zpow_neg, inv_mul_eq_one] at hab
        exact_mod_cast hab
      · have := (abs_le.1 x1).1
        push_cast at this
        linarith
      · have := (abs_le.1 x2).2
        exact_mod_cast this
  · exfalso
    obtain ⟨u, rfl⟩ : ∃ u : ℕ, a = -u := ⟨a.natAbs, by omega⟩
    obtain ⟨v, rfl⟩ : ∃ v : ℕ, b = -v := ⟨b.natAbs, by omega⟩
    refine same u v ?_ (by omega) ?_
    · rw [zpow_neg, zpow_neg, ← mul_inv, inv_eq_one] at hab
      exact_mod_cast hab
    · have := (abs_le.1 x3).1
      push_cast at this
      linarith

end Verif.Aks
