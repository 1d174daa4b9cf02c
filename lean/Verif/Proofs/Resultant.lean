import Verif.Proofs.Subresultant
import Mathlib.RingTheory.Polynomial.Resultant.Basic
import Mathlib.RingTheory.Localization.FractionRing

/-!
# The subresultant sequence never panics, its last member is the gcd up to scalars, and it gives the resultant
-/

namespace Verif.Rings

open Polynomial

section Alg
variable {R : Type} [CommRing R]

theorem quo_natDegree_le [IsDomain R] {A B T Q : R[X]} (hB : B ≠ 0) (hT : T.degree < B.degree) (m n : Nat) (hA : A.natDegree ≤ m)
    (hn : B.natDegree = n) (hmn : n ≤ m) (h : A = Q * B + T) : Q.natDegree ≤ m - n := by
  by_cases hQ : Q = 0
  · rw [hQ, natDegree_zero]; omega
  by_contra hc
  have h5 : (Q * B).coeff (Q.natDegree + B.natDegree) ≠ 0 := by
    rw [coeff_mul_degree_add_degree]
    exact mul_ne_zero (leadingCoeff_ne_zero.2 hQ) (leadingCoeff_ne_zero.2 hB)
  apply h5
  have e : Q * B = A - T := by rw [h]; ring
  rw [e, coeff_sub, coeff_eq_zero_of_natDegree_lt (by omega), coeff_eq_zero_of_degree_lt, sub_zero]
  refine lt_of_lt_of_le hT ?_
  rw [degree_eq_natDegree hB]
  exact_mod_cast Nat.le_add_left _ _

theorem resultant_chain [IsDomain R] (A B c Q : R[X]) (β la g g' D : R) (m n l : Nat) (hA : A.natDegree = m) (hB : B.natDegree = n)
    (hB0 : B ≠ 0) (hc : c.natDegree = l) (hmn : n ≤ m) (hln : l < n)
    (h : C (B.leadingCoeff ^ (m - n + 1)) * A = Q * B + C β * c) (hQ : Q.natDegree ≤ m - n)
    (hla : la ≠ 0) (hg : g ≠ 0) (hβ : β = -la * g ^ (m - n))
    (hg' : g' * g ^ (m - n) = (-B.leadingCoeff) ^ (m - n) * g)
    (hD : resultant A B m n = la ^ n * (-g) ^ (m - 1) * D) :
    resultant B c n l = B.leadingCoeff ^ l * (-g') ^ (n - 1) * D := by
  have hb : B.leadingCoeff ≠ 0 := leadingCoeff_ne_zero.2 hB0
  have e1 : (B.leadingCoeff ^ (m - n + 1)) ^ n * resultant A B m n
      = β ^ n * ((-1) ^ (n * (m - l)) * B.leadingCoeff ^ (m - l) * ((-1) ^ (l * n) * resultant B c n l)) := by
    rw [← resultant_C_mul_left, h, show Q * B + C β * c = C β * c + B * Q by ring,
      resultant_add_mul_left _ _ _ _ _ (by omega) hB.le, resultant_C_mul_left]
    have : resultant c B m n = resultant c B (l + (m - l)) n := by rw [Nat.add_sub_cancel' (by omega)]
    rw [this, resultant_add_left_deg _ _ _ _ _ hc.le, resultant_comm c B l n]
    rw [← hB, coeff_natDegree]
  rw [hD] at e1
  generalize B.leadingCoeff = b at *
  generalize resultant B c n l = Z at *
  obtain ⟨δ, rfl⟩ : ∃ δ, m = n + δ := ⟨m - n, by omega⟩
  obtain ⟨t, rfl⟩ : ∃ t, n = l + t + 1 := ⟨n - l - 1, by omega⟩
  rw [show l + t + 1 + δ - (l + t + 1) = δ by omega] at *
  rw [show l + t + 1 + δ - l = t + 1 + δ by omega, show l + t + 1 + δ - 1 = l + t + δ by omega] at e1
  rw [show l + t + 1 - 1 = l + t by omega]
  have hs : (-g') * (-g) ^ δ = b ^ δ * (-g) := by
    have h1 : ((-1 : R) ^ δ) * (-1) ^ δ = 1 := by rw [← mul_pow]; simp
    have h2 : (-g) ^ δ = (-1) ^ δ * g ^ δ := by rw [neg_pow]
    have h3 : (-b) ^ δ = (-1) ^ δ * b ^ δ := by rw [neg_pow]
    rw [h3] at hg'
    rw [h2]
    linear_combination (-(-1) ^ δ) * hg' + (-(b ^ δ * g)) * h1
  have hs' : (-g') ^ (l + t) * ((-g) ^ δ) ^ (l + t) = (b ^ δ) ^ (l + t) * (-g) ^ (l + t) := by
    rw [← mul_pow, hs, mul_pow]
  have hβ' : β = -(-1) ^ δ * la * (-g) ^ δ := by
    have h1 : ((-1 : R) ^ δ) * (-1) ^ δ = 1 := by rw [← mul_pow]; simp
    have h2 : (-g) ^ δ = (-1) ^ δ * g ^ δ := by rw [neg_pow]
    rw [hβ, h2]; linear_combination (la * g ^ δ) * h1
  have hsign : (-(-1 : R) ^ δ) ^ (l + t + 1) * (-1) ^ ((l + t + 1) * (t + 1 + δ)) * (-1) ^ (l * (l + t + 1)) = 1 := by
    have h0 : -(-1 : R) ^ δ = (-1) ^ (δ + 1) := by ring
    rw [h0, ← pow_mul, ← pow_add, ← pow_add]
    apply Even.neg_one_pow
    have : (δ + 1) * (l + t + 1) + (l + t + 1) * (t + 1 + δ) + l * (l + t + 1)
        = 2 * (δ * (l + t + 1)) + (l + t + 1) * (l + t + 1 + 1) := by ring
    rw [this]
    exact Even.add (even_two_mul _) (Nat.even_mul_succ_self _)
  rw [hβ'] at e1
  have hng : -g ≠ 0 := neg_ne_zero.2 hg
  have hne : la ^ (l + t + 1) * ((-g) ^ δ) ^ (l + t + 1) * b ^ (t + 1 + δ) * (-g) ^ (l + t) ≠ 0 := by
    refine mul_ne_zero (mul_ne_zero (mul_ne_zero ?_ ?_) ?_) ?_ <;> simp [hla, hg, hb]
  apply mul_left_cancel₀ hne
  have lhs : la ^ (l + t + 1) * ((-g) ^ δ) ^ (l + t + 1) * b ^ (t + 1 + δ) * (-g) ^ (l + t) * Z
      = (-g) ^ (l + t) * ((b ^ (δ + 1)) ^ (l + t + 1) * (la ^ (l + t + 1) * (-g) ^ (l + t + δ) * D)) := by
    rw [e1, mul_pow, mul_pow]
    linear_combination (-(la ^ (l + t + 1) * ((-g) ^ δ) ^ (l + t + 1) * b ^ (t + 1 + δ) * (-g) ^ (l + t) * Z)) * hsign
  rw [lhs]
  linear_combination (-(la ^ (l + t + 1) * (-g) ^ (l + t + δ) * b ^ (l + t + 1 + δ) * D)) * hs'

end Alg
section Ideal
variable {R K : Type} [CommRing R] [IsDomain R] [Field K] [Algebra R K] [IsFractionRing R K]

/-- The extension of a polynomial to the field of fractions. -/
noncomputable abbrev toFrac (K : Type) [Field K] [Algebra R K] (f : R[X]) : K[X] := f.map (algebraMap R K)

theorem isUnit_C_frac (r : R) (hr : r ≠ 0) : IsUnit (C (algebraMap R K r)) := by
  rw [isUnit_C, isUnit_iff_ne_zero, Ne, IsFractionRing.to_map_eq_zero_iff]; exact hr

theorem span_chain (A B c Q : R[X]) (b β : R) (hb : b ≠ 0) (hβ : β ≠ 0) (h : C b * A = Q * B + C β * c) :
    Ideal.span {toFrac K B, toFrac K c} = Ideal.span {toFrac K A, toFrac K B} := by
  have h' : C (algebraMap R K b) * toFrac K A = toFrac K Q * toFrac K B + C (algebraMap R K β) * toFrac K c := by
    have := congrArg (Polynomial.map (algebraMap R K)) h
    simpa using this
  obtain ⟨ub, hub⟩ := isUnit_C_frac (K := K) b hb
  obtain ⟨uβ, huβ⟩ := isUnit_C_frac (K := K) β hβ
  rw [← hub, ← huβ] at h'
  apply le_antisymm
  · rw [Ideal.span_le]
    rintro x (rfl | rfl)
    · exact Ideal.subset_span (by simp)
    · change _ ∈ Ideal.span _
      rw [Ideal.mem_span_pair]
      refine ⟨↑uβ⁻¹ * ↑ub, -↑uβ⁻¹ * toFrac K Q, ?_⟩
      have : (↑uβ⁻¹ : K[X]) * ↑uβ = 1 := Units.inv_mul _
      linear_combination (↑uβ⁻¹ : K[X]) * h' + toFrac K c * this
  · rw [Ideal.span_le]
    rintro x (rfl | rfl)
    · change _ ∈ Ideal.span _
      rw [Ideal.mem_span_pair]
      refine ⟨↑ub⁻¹ * toFrac K Q, ↑ub⁻¹ * ↑uβ, ?_⟩
      have : (↑ub⁻¹ : K[X]) * ↑ub = 1 := Units.inv_mul _
      linear_combination (-(↑ub⁻¹ : K[X])) * h' + toFrac K A * this
    · exact Ideal.subset_span (by simp)

end Ideal

section Loop
variable {α R K : Type} [CommRing R] [Field K] [Algebra R K] {S : DomainOps α} {v : α → R} (h : S.Models v)

/-- What is known of the outputs so far. -/
structure PrsOut (K : Type) [Field K] [Algebra R K] (v : α → R) (A₀ A₁ : R[X]) (st : PrsState α) : Prop where
  last : st.prs.getLast? = some st.b
  slast : ∃ s, st.ssres.getLast? = some s ∧ v s = -v st.gamma
  ideal : Ideal.span {toFrac K (polyVal v st.b), toFrac K (polyVal v st.r)} = Ideal.span {toFrac K A₀, toFrac K A₁}
  res : polyVal v st.r ≠ 0 →
    resultant (polyVal v st.b) (polyVal v st.r) (polyVal v st.b).natDegree (polyVal v st.r).natDegree
      = (polyVal v st.b).leadingCoeff ^ (polyVal v st.r).natDegree * (-v st.gamma) ^ ((polyVal v st.b).natDegree - 1)
        * resultant A₀ A₁
  const : (polyVal v st.b).natDegree = 0 → -v st.gamma = resultant A₀ A₁

include h

theorem prsGamma_spec (lcB gamma : α) (d : Nat) (hd : 1 ≤ d) (hg : v gamma ≠ 0) (e : R)
    (he : (v lcB ^ d) ^ 2 = (v gamma ^ (d - 1)) ^ 2 * e ^ 2) :
    ∃ g', S.prsGamma lcB gamma d = some g' ∧ v g' * v gamma ^ d = (-v lcB) ^ d * v gamma := by
  haveI := h.domain
  rw [DomainOps.prsGamma]
  by_cases h1 : d > 1
  · rw [if_pos h1]
    obtain ⟨q, q1, q2⟩ := h.div_unwrap (S.natPow (S.neg lcB) d) (S.natPow gamma (d - 1)) (by
      rw [h.toSemi.natPow]; exact pow_ne_zero _ hg) (by
      rw [h.toSemi.natPow, h.toSemi.natPow, h.neg, neg_pow]
      apply Dvd.dvd.mul_left
      rw [← mul_pow, sq_eq_sq_iff_eq_or_eq_neg] at he
      rcases he with he | he
      · exact ⟨e, he⟩
      · exact ⟨-e, by rw [he]; ring⟩)
    refine ⟨q, q1, ?_⟩
    rw [h.toSemi.natPow, h.toSemi.natPow, h.neg] at q2
    obtain ⟨d, rfl⟩ : ∃ d', d = d' + 1 := ⟨d - 1, by omega⟩
    rw [q2, Nat.add_sub_cancel]; ring
  · have : d = 1 := by omega
    subst this
    rw [if_neg (by omega)]
    refine ⟨_, rfl, ?_⟩
    rw [h.neg]; ring

theorem prsStep_spec [IsFractionRing R K] (A₀ A₁ : R[X]) (st : PrsState α) (hi : PrsInv v A₀ A₁ st) (ho : PrsOut K v A₀ A₁ st)
    (hr : polyVal v st.r ≠ 0) :
    ∃ st', S.prsStep st (polyVal v st.r).natDegree = some st' ∧ PrsInv v A₀ A₁ st' ∧ PrsOut K v A₀ A₁ st' ∧ st'.b = st.r := by
  haveI := h.domain
  have hln : (polyVal v st.r).natDegree < (polyVal v st.b).natDegree := (natDegree_lt_natDegree_iff hr).2 hi.r_lt
  obtain ⟨pr, -, p2, p3, Q, p4⟩ := h.polyPremUnwrap st.b st.r hr hi.b_ne hln.le
  have hlr : (polyVal v st.r).leadingCoeff ≠ 0 := leadingCoeff_ne_zero.2 hr
  have hlb : (polyVal v st.b).leadingCoeff ≠ 0 := leadingCoeff_ne_zero.2 hi.b_ne
  have hQ : Q.natDegree ≤ (polyVal v st.b).natDegree - (polyVal v st.r).natDegree :=
    quo_natDegree_le hr p3 _ _ (by rw [natDegree_C_mul (pow_ne_zero _ hlr)]) rfl hln.le p4
  have hvβ : v (S.mul (S.neg st.lcB) (S.natPow st.gamma (st.bDeg - (polyVal v st.r).natDegree)))
      = -(polyVal v st.b).leadingCoeff * v st.gamma ^ ((polyVal v st.b).natDegree - (polyVal v st.r).natDegree) := by
    rw [h.mul, h.neg, h.toSemi.natPow, hi.lcB, hi.bDeg]
  have hβ0 : -(polyVal v st.b).leadingCoeff * v st.gamma ^ ((polyVal v st.b).natDegree - (polyVal v st.r).natDegree) ≠ 0 :=
    mul_ne_zero (neg_ne_zero.2 hlb) (pow_ne_zero _ hi.gamma)
  -- the division of the pseudo-remainder is exact
  have hdvd : C (-(polyVal v st.b).leadingCoeff * v st.gamma ^ ((polyVal v st.b).natDegree - (polyVal v st.r).natDegree))
      ∣ polyVal v pr := by
    rw [C_dvd_iff_dvd_coeff]
    intro k
    by_cases hk : k < (polyVal v st.r).natDegree
    · have e1 := subresSq_prem (polyVal v st.b) (polyVal v st.r) (polyVal v pr) Q _ _ k rfl hr hln.le hk p3 p4 hQ
      have e2 := hi.sub ((polyVal v st.r).natDegree - 1) k hr (by omega) (by omega)
      obtain ⟨e, he⟩ := subresSq_isSq ((polyVal v st.r).natDegree - 1) k A₀.natDegree A₁.natDegree A₀ A₁
      rw [e1, he, show (polyVal v st.r).natDegree - ((polyVal v st.r).natDegree - 1) = 1 by omega,
        show (polyVal v st.b).natDegree - ((polyVal v st.r).natDegree - 1) - 1
          = (polyVal v st.b).natDegree - (polyVal v st.r).natDegree by omega, ← mul_pow, sq_eq_sq_iff_eq_or_eq_neg] at e2
      rcases e2 with e2 | e2
      · exact ⟨-e, by rw [e2]; ring⟩
      · exact ⟨e, by rw [e2]; ring⟩
    · rw [coeff_eq_zero_of_degree_lt (lt_of_lt_of_le p3 (by
        rw [degree_eq_natDegree hr]; exact_mod_cast (by omega)))]
      exact dvd_zero _
  obtain ⟨c, c1, c2⟩ := h.poly.div_unwrap pr (polyConst (S.mul (S.neg st.lcB)
    (S.natPow st.gamma (st.bDeg - (polyVal v st.r).natDegree)))) (by
      rw [polyVal_const, hvβ, Ne, C_eq_zero]; exact hβ0) (by rw [polyVal_const, hvβ]; exact hdvd)
  rw [polyVal_const, hvβ] at c2
  obtain ⟨lr, l1, l2⟩ := h.toSemi.polyLeadingCoeff_some st.r hr
  -- so is the one that gives the new scalar
  obtain ⟨e, he⟩ := subresSq_isSq (polyVal v st.r).natDegree (polyVal v st.r).natDegree A₀.natDegree A₁.natDegree A₀ A₁
  have epsc := hi.sub (polyVal v st.r).natDegree (polyVal v st.r).natDegree hr le_rfl le_rfl
  rw [subresSq_psc _ _ _ _ rfl hln.le, he, Nat.sub_self, pow_zero, one_mul, Nat.sub_right_comm] at epsc
  obtain ⟨g', g1, g2⟩ := prsGamma_spec h lr st.gamma ((polyVal v st.b).natDegree - (polyVal v st.r).natDegree) (by omega) hi.gamma e
    (by rw [l2, epsc, Nat.sub_right_comm])
  rw [l2] at g2
  have p4' : C ((polyVal v st.r).leadingCoeff ^ ((polyVal v st.b).natDegree - (polyVal v st.r).natDegree + 1)) * polyVal v st.b
      = Q * polyVal v st.r + C (-(polyVal v st.b).leadingCoeff
          * v st.gamma ^ ((polyVal v st.b).natDegree - (polyVal v st.r).natDegree)) * polyVal v c := by
    rw [p4, c2]; ring
  have hc_lt : (polyVal v c).degree < (polyVal v st.r).degree := by
    rw [c2, degree_mul_C hβ0] at p3; exact p3
  have hg'0 : v g' ≠ 0 := by
    intro e0
    rw [e0, zero_mul] at g2
    exact mul_ne_zero (pow_ne_zero _ (neg_ne_zero.2 hlr)) hi.gamma g2.symm
  refine ⟨⟨st.prs ++ [st.r], st.ssres ++ [S.neg g'], st.r, (polyVal v st.r).natDegree, c, lr, g'⟩, ?_, ?_, ?_, ?_⟩
  · rw [DomainOps.prsStep, p2]
    have c1' : unwrapDiv (S.polyDiv pr (polyConst (S.mul (S.neg st.lcB)
      (S.natPow st.gamma (st.bDeg - (polyVal v st.r).natDegree))))) = some c := c1
    simp only [Option.bind_eq_bind, Option.bind_some, c1', l1]
    rw [hi.bDeg, g1]; rfl
  · refine ⟨hr, rfl, hc_lt, l2, hg'0, ?_⟩
    intro j k hc hj hk
    have hlt : (polyVal v c).natDegree < (polyVal v st.r).natDegree := (natDegree_lt_natDegree_iff hc).2 hc_lt
    exact subres_chain (polyVal v st.b) (polyVal v st.r) (polyVal v c) Q 0 _ (polyVal v st.b).leadingCoeff (v st.gamma) (v g')
      _ _ _ _ j k rfl hr rfl hln.le hlt hj hk p4' hQ hlb hi.gamma (by ring) (by
        rw [g2, mul_pow, ← pow_mul, mul_comm _ 2, pow_mul, neg_sq, ← pow_mul, mul_comm 2, pow_mul, ← mul_pow])
      (hi.sub j k hr (by have : j ≤ (polyVal v c).natDegree := hj; omega) hk)
  · refine ⟨by simp, ⟨S.neg g', by simp, h.neg _⟩, ?_, ?_, ?_⟩
    · rw [← ho.ideal]
      exact span_chain _ _ _ _ _ _ (pow_ne_zero _ hlr) hβ0 p4'
    · intro hc
      have hlt : (polyVal v c).natDegree < (polyVal v st.r).natDegree := (natDegree_lt_natDegree_iff hc).2 hc_lt
      exact resultant_chain (polyVal v st.b) (polyVal v st.r) (polyVal v c) Q _ (polyVal v st.b).leadingCoeff (v st.gamma) (v g')
        _ _ _ _ rfl rfl hr rfl hln.le hlt p4' hQ hlb hi.gamma rfl g2 (ho.res hr)
    · intro h0
      change (polyVal v st.r).natDegree = 0 at h0
      change -v g' = _
      have hres := ho.res hr
      have hC := eq_C_of_natDegree_eq_zero h0
      rw [h0, pow_zero, one_mul] at hres
      rw [h0, Nat.sub_zero] at g2
      have hlc : (polyVal v st.r).leadingCoeff = (polyVal v st.r).coeff 0 := by rw [leadingCoeff, h0]
      have e0 : resultant (polyVal v st.b) (polyVal v st.r) (polyVal v st.b).natDegree 0
          = (polyVal v st.r).leadingCoeff ^ (polyVal v st.b).natDegree := by
        conv_lhs => rw [hC]
        rw [resultant_C_zero_right, hlc]
      rw [e0] at hres
      obtain ⟨n, hn⟩ : ∃ n, (polyVal v st.b).natDegree = n + 1 := ⟨(polyVal v st.b).natDegree - 1, by omega⟩
      rw [hn] at hres g2
      rw [Nat.add_sub_cancel] at hres
      apply mul_right_cancel₀ (pow_ne_zero (n + 1) hi.gamma)
      have h1 : ((-1 : R) ^ n) * (-1) ^ n = 1 := by rw [← mul_pow]; simp
      rw [neg_pow (v st.gamma)] at hres
      rw [neg_pow] at g2
      rw [hres] at g2
      linear_combination (-1 : R) * g2 + (v st.gamma ^ (n + 1) * resultant A₀ A₁) * h1
  · rfl

theorem prsLoop_spec [IsFractionRing R K] (A₀ A₁ : R[X]) (st : PrsState α) (hi : PrsInv v A₀ A₁ st) (ho : PrsOut K v A₀ A₁ st) :
    ∃ st', S.prsLoop st = some (st'.prs, st'.ssres) ∧ PrsInv v A₀ A₁ st' ∧ PrsOut K v A₀ A₁ st' ∧ polyVal v st'.r = 0 := by
  induction hn : (polyVal v st.b).natDegree using Nat.strong_induction_on generalizing st with
  | _ n ih =>
    rw [DomainOps.prsLoop]
    by_cases hr : polyVal v st.r = 0
    · rw [h.toSemi.polyDegree_none st.r hr]
      refine ⟨st, ?_, hi, ho, hr⟩
      simp [assertThat, (h.toSemi.poly.isZero st.r).2 hr]
    · rw [h.toSemi.polyDegree_some st.r hr]
      obtain ⟨st', h1, h2, h3, h4⟩ := prsStep_spec h A₀ A₁ st hi ho hr
      have hlt : (polyVal v st'.b).natDegree < n := by
        rw [h4, ← hn]; exact (natDegree_lt_natDegree_iff hr).2 hi.r_lt
      obtain ⟨st'', g1, g2⟩ := ih _ hlt st' h2 h3 rfl
      exact ⟨st'', by simp only [h1, Option.bind_eq_bind, Option.bind_some, g1], g2⟩

theorem prsOrdered_spec [IsFractionRing R K] (a b : List α) (ha : polyVal v a ≠ 0) (hb : polyVal v b ≠ 0)
    (hd : (polyVal v b).natDegree ≤ (polyVal v a).natDegree) :
    ∃ st, S.prsOrdered a b (polyVal v a).natDegree (polyVal v b).natDegree = some (st.prs, st.ssres) ∧
      PrsInv v (polyVal v a) (polyVal v b) st ∧ PrsOut K v (polyVal v a) (polyVal v b) st ∧ polyVal v st.r = 0 := by
  haveI := h.domain
  obtain ⟨pr, -, p2, p3, Q, p4⟩ := h.polyPremUnwrap a b hb ha hd
  have hlb : (polyVal v b).leadingCoeff ≠ 0 := leadingCoeff_ne_zero.2 hb
  obtain ⟨lb, l1, l2⟩ := h.toSemi.polyLeadingCoeff_some b hb
  have hQ : Q.natDegree ≤ (polyVal v a).natDegree - (polyVal v b).natDegree :=
    quo_natDegree_le hb p3 _ _ (by rw [natDegree_C_mul (pow_ne_zero _ hlb)]) rfl hd p4
  rw [DomainOps.prsOrdered, p2]
  simp only [Option.bind_eq_bind, Option.bind_some, l1]
  generalize hδ : (polyVal v a).natDegree - (polyVal v b).natDegree = δ at *
  have hvβ : v (S.natPow (S.neg S.one) (δ + 1)) = (-1) ^ (δ + 1) := by rw [h.toSemi.natPow, h.neg, h.one]
  have hβ2 : ((-1 : R) ^ (δ + 1)) * (-1) ^ (δ + 1) = 1 := by rw [← mul_pow]; simp
  have hδ2 : ((-1 : R) ^ δ) * (-1) ^ δ = 1 := by rw [← mul_pow]; simp
  have hβ0 : ((-1 : R) ^ (δ + 1)) ≠ 0 := pow_ne_zero _ (neg_ne_zero.2 one_ne_zero)
  have hrv : polyVal v (S.polyMulScalar pr (S.natPow (S.neg S.one) (δ + 1))) = polyVal v pr * C ((-1) ^ (δ + 1)) := by
    rw [h.toSemi.polyMulScalar, hvβ]
  have hgv : v (S.neg (S.natPow lb δ)) = -(polyVal v b).leadingCoeff ^ δ := by rw [h.neg, h.toSemi.natPow, l2]
  generalize S.polyMulScalar pr (S.natPow (S.neg S.one) (δ + 1)) = r at hrv
  generalize hG : S.neg (S.natPow lb δ) = G at hgv
  have p4' : C ((polyVal v b).leadingCoeff ^ (δ + 1)) * polyVal v a = Q * polyVal v b + C ((-1) ^ (δ + 1)) * polyVal v r := by
    rw [p4, hrv]
    have : (C ((-1 : R) ^ (δ + 1)) : R[X]) * C ((-1) ^ (δ + 1)) = 1 := by rw [← C_mul, hβ2, C_1]
    linear_combination (-polyVal v pr) * this
  have hr_lt : (polyVal v r).degree < (polyVal v b).degree := by rw [hrv, degree_mul_C hβ0]; exact p3
  apply prsLoop_spec h
  · refine ⟨hb, rfl, hr_lt, l2, by rw [hgv]; exact neg_ne_zero.2 (pow_ne_zero _ hlb), ?_⟩
    intro j k hr hj hk
    change polyVal v r ≠ 0 at hr
    change j ≤ (polyVal v r).natDegree at hj
    change subresSq j k (polyVal v b).natDegree (polyVal v r).natDegree (polyVal v b) (polyVal v r) = _
    have hlt : (polyVal v r).natDegree < (polyVal v b).natDegree := (natDegree_lt_natDegree_iff hr).2 hr_lt
    have := subres_chain (polyVal v a) (polyVal v b) (polyVal v r) Q 0 ((-1) ^ (δ + 1)) 1 (-1) (-(polyVal v b).leadingCoeff ^ δ)
      (subresSq j k (polyVal v a).natDegree (polyVal v b).natDegree (polyVal v a) (polyVal v b))
      _ _ _ j k rfl hb rfl hd hlt hj hk (by rw [hδ]; exact p4') (by rw [hδ]; exact hQ) one_ne_zero
      (neg_ne_zero.2 one_ne_zero) (by rw [hδ]; ring) (by rw [hδ]; linear_combination ((polyVal v b).leadingCoeff ^ (2 * δ)) * hδ2) (by
        rw [one_pow, one_mul, ← pow_mul, mul_comm _ 2, pow_mul]; simp)
    rw [this, hgv]
  · refine ⟨by simp, ⟨S.natPow lb δ, by simp, ?_⟩, ?_, ?_, ?_⟩
    · change _ = -v G
      rw [← hG, h.neg, neg_neg]
    · exact span_chain _ _ _ _ _ _ (pow_ne_zero _ hlb) hβ0 p4'
    · intro hr
      have hlt : (polyVal v r).natDegree < (polyVal v b).natDegree := (natDegree_lt_natDegree_iff hr).2 hr_lt
      have := resultant_chain (polyVal v a) (polyVal v b) (polyVal v r) Q ((-1) ^ (δ + 1)) 1 (-1) (-(polyVal v b).leadingCoeff ^ δ)
        (resultant (polyVal v a) (polyVal v b)) _ _ _ rfl rfl hb rfl hd hlt (by rw [hδ]; exact p4') (by rw [hδ]; exact hQ)
        one_ne_zero (neg_ne_zero.2 one_ne_zero) (by rw [hδ]; ring) (by rw [hδ, neg_pow (polyVal v b).leadingCoeff]; ring)
        (by simp)
      change resultant (polyVal v b) (polyVal v r) _ _ = _ * (-v G) ^ _ * _
      rw [hgv]; exact this
    · intro h0
      change (polyVal v b).natDegree = 0 at h0
      change -v G = _
      rw [hgv, neg_neg]
      have hC := eq_C_of_natDegree_eq_zero h0
      have hlc : (polyVal v b).leadingCoeff = (polyVal v b).coeff 0 := by rw [leadingCoeff, h0]
      rw [h0, Nat.sub_zero] at hδ
      rw [h0]
      conv_rhs => rw [hC]
      rw [resultant_C_zero_right, hlc, hδ]

/-- The subresultant sequence of two nonzero polynomials: it never panics; its last member generates over the field of
fractions the same ideal as the two polynomials; its last scalar is the resultant when the last member is constant. -/
theorem polyPrs_spec [IsFractionRing R K] (a b : List α) (ha : polyVal v a ≠ 0) (hb : polyVal v b ≠ 0) :
    ∃ prs ss g s, S.polyPrs a b = some (prs, ss) ∧ prs.getLast? = some g ∧ ss.getLast? = some s ∧ polyVal v g ≠ 0 ∧
      Ideal.span {toFrac K (polyVal v g)} = Ideal.span {toFrac K (polyVal v a), toFrac K (polyVal v b)} ∧
      ((polyVal v g).natDegree = 0 →
        v s = if (polyVal v a).natDegree < (polyVal v b).natDegree then resultant (polyVal v b) (polyVal v a)
          else resultant (polyVal v a) (polyVal v b)) := by
  have fin (a b : List α) (st : PrsState α) (hi : PrsInv v (polyVal v a) (polyVal v b) st)
      (ho : PrsOut K v (polyVal v a) (polyVal v b) st) (hz : polyVal v st.r = 0) :
      ∃ g s, st.prs.getLast? = some g ∧ st.ssres.getLast? = some s ∧ polyVal v g ≠ 0 ∧
      Ideal.span {toFrac K (polyVal v g)} = Ideal.span {toFrac K (polyVal v a), toFrac K (polyVal v b)} ∧
      ((polyVal v g).natDegree = 0 → v s = resultant (polyVal v a) (polyVal v b)) := by
    obtain ⟨s, hs1, hs2⟩ := ho.slast
    refine ⟨st.b, s, ho.last, hs1, hi.b_ne, ?_, fun h0 => by rw [hs2]; exact ho.const h0⟩
    have := ho.ideal
    rw [hz, toFrac, toFrac, Polynomial.map_zero, Set.pair_comm, Ideal.span_insert_zero] at this
    exact this
  rw [DomainOps.polyPrs, h.toSemi.polyDegree_some a ha, h.toSemi.polyDegree_some b hb]
  simp only
  by_cases hlt : (polyVal v a).natDegree < (polyVal v b).natDegree
  · rw [if_pos hlt]
    obtain ⟨st, h1, h2, h3, h4⟩ := prsOrdered_spec (K := K) h b a hb ha hlt.le
    obtain ⟨g, s, g1, g2, g3, g4, g5⟩ := fin b a st h2 h3 h4
    exact ⟨_, _, g, s, h1, g1, g2, g3, by rw [g4, Set.pair_comm], fun h0 => by rw [if_pos hlt]; exact g5 h0⟩
  · rw [if_neg hlt]
    obtain ⟨st, h1, h2, h3, h4⟩ := prsOrdered_spec (K := K) h a b ha hb (by omega)
    obtain ⟨g, s, g1, g2, g3, g4, g5⟩ := fin a b st h2 h3 h4
    exact ⟨_, _, g, s, h1, g1, g2, g3, g4, fun h0 => by rw [if_neg hlt]; exact g5 h0⟩

/-- `subresultant_gcd` of polynomials not both zero. -/
theorem polySubresultantGcd_spec [IsFractionRing R K] (a b : List α) (hab : ¬ (polyVal v a = 0 ∧ polyVal v b = 0)) :
    ∃ g, S.polySubresultantGcd a b = some g ∧ polyVal v g ≠ 0 ∧
      Ideal.span {toFrac K (polyVal v g)} = Ideal.span {toFrac K (polyVal v a), toFrac K (polyVal v b)} := by
  by_cases ha : polyVal v a = 0
  · have hb : polyVal v b ≠ 0 := fun hb => hab ⟨ha, hb⟩
    refine ⟨b, ?_, hb, ?_⟩
    · rw [DomainOps.polySubresultantGcd, DomainOps.polyPrs, h.toSemi.polyDegree_none a ha, h.toSemi.polyDegree_some b hb]
      rfl
    · rw [ha, toFrac, toFrac, Polynomial.map_zero, Ideal.span_insert_zero]
  by_cases hb : polyVal v b = 0
  · refine ⟨a, ?_, ha, ?_⟩
    · rw [DomainOps.polySubresultantGcd, DomainOps.polyPrs, h.toSemi.polyDegree_none b hb, h.toSemi.polyDegree_some a ha]
      rfl
    · rw [hb, toFrac, toFrac, Polynomial.map_zero, Set.pair_comm, Ideal.span_insert_zero]
  obtain ⟨prs, ss, g, s, h1, h2, h3, h4, h5, -⟩ := polyPrs_spec (K := K) h a b ha hb
  exact ⟨g, by rw [DomainOps.polySubresultantGcd, h1]; exact h2, h4, h5⟩

/-- `subresultant_gcd(0, 0)` panics. -/
theorem polySubresultantGcd_zero (a b : List α) (ha : polyVal v a = 0) (hb : polyVal v b = 0) :
    S.polySubresultantGcd a b = none := by
  rw [DomainOps.polySubresultantGcd, DomainOps.polyPrs, h.toSemi.polyDegree_none a ha, h.toSemi.polyDegree_none b hb]
  rfl

omit h in
theorem resultant_eq_zero_of_gcd [IsFractionRing R K] [IsDomain R] (A B g : R[X]) (hA : A ≠ 0) (hg : g.natDegree ≠ 0)
    (hs : Ideal.span {toFrac K g} = Ideal.span {toFrac K A, toFrac K B}) : resultant A B = 0 := by
  have hinj : Function.Injective (algebraMap R K) := IsFractionRing.injective R K
  apply hinj
  rw [map_zero, ← resultant_map_map]
  have : resultant (toFrac K A) (toFrac K B) = 0 := by
    rw [resultant_eq_zero_iff]
    refine ⟨Or.inl ((Polynomial.map_ne_zero_iff hinj).2 hA), ?_⟩
    rw [← Ideal.isCoprime_span_singleton_iff, Ideal.isCoprime_iff_sup_eq, ← Ideal.span_union, Set.singleton_union, ← hs]
    rw [Ideal.span_singleton_eq_top]
    intro hu
    have := natDegree_eq_zero_of_isUnit hu
    rw [natDegree_map_eq_of_injective hinj] at this
    exact hg this
  rw [natDegree_map_eq_of_injective hinj, natDegree_map_eq_of_injective hinj] at this
  exact this

/-- `resultant` of two nonzero polynomials: the resultant with the polynomial of larger degree first. -/
theorem polyResultant_spec (a b : List α) (ha : polyVal v a ≠ 0) (hb : polyVal v b ≠ 0) :
    ∃ s, S.polyResultant a b = some s ∧
      v s = if (polyVal v a).natDegree < (polyVal v b).natDegree then resultant (polyVal v b) (polyVal v a)
          else resultant (polyVal v a) (polyVal v b) := by
  haveI := h.domain
  obtain ⟨prs, ss, g, s, h1, h2, h3, h4, h5, h6⟩ := polyPrs_spec (K := FractionRing R) h a b ha hb
  have e : S.polyResultant a b = S.resultantOf (prs, ss) := by
    rw [DomainOps.polyResultant, if_neg, h1]
    · rfl
    · rw [Bool.or_eq_true, h.toSemi.poly.isZero, h.toSemi.poly.isZero]
      rintro (e | e)
      · exact ha e
      · exact hb e
  rw [e, DomainOps.resultantOf]
  simp only [h2, Option.bind_eq_bind, Option.bind_some, h.toSemi.polyDegree_some g h4]
  by_cases h0 : (polyVal v g).natDegree = 0
  · rw [if_neg (by omega)]
    exact ⟨s, h3, h6 h0⟩
  · rw [if_pos (by omega)]
    refine ⟨_, rfl, ?_⟩
    rw [h.zero]
    split
    · exact (resultant_eq_zero_of_gcd (K := FractionRing R) _ _ _ hb h0 (by rw [h5, Set.pair_comm])).symm
    · exact (resultant_eq_zero_of_gcd (K := FractionRing R) _ _ _ ha h0 h5).symm

theorem polyResultant_zero (a b : List α) (hab : polyVal v a = 0 ∨ polyVal v b = 0) :
    S.polyResultant a b = some S.zero := by
  rw [DomainOps.polyResultant, if_pos]
  rw [Bool.or_eq_true, h.toSemi.poly.isZero, h.toSemi.poly.isZero]
  exact hab

end Loop
end Verif.Rings
