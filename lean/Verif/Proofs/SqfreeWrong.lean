import Verif.Proofs.SqfreeFinite

/-!
# Squarefree factorization does not take roots of the coefficients
-/

namespace Verif.Rings

open Polynomial

section
variable {α K : Type} [Field K] {F : FinFieldOps α} {v : α → K}

theorem factorizeSquarefree_root (h : F.Models v) (u : α) (hu1 : v u = 1) (l : List α) (b : K) (hl : polyVal v l = X ^ F.charPow.1 - C b) :
    ∃ s, F.factorizeSquarefree ⟨u, l⟩ = some s ∧ s.Valid v ∧ s.denote v = X ^ F.charPow.1 - C (b ^ F.charPow.1) := by
  haveI := h.char
  haveI := h.finite
  haveI : Fact F.charPow.1.Prime := ⟨h.prime⟩
  have hp := h.prime
  have hone : v F.one = 1 := h.toDomain.toRing.toSemi.one
  have hmon : (polyVal v l).Monic := by rw [hl]; exact monic_X_pow_sub_C b hp.ne_zero
  have hnat : (polyVal v l).natDegree = F.charPow.1 := by rw [hl]; exact natDegree_X_pow_sub_C
  have hder : derivative (polyVal v l) = 0 := by
    rw [hl, derivative_sub, derivative_X_pow, derivative_C, CharP.cast_eq_zero]; simp
  rw [FinFieldOps.factorizeSquarefree]
  have e0 : F.sqUnit u = some ⟨u, []⟩ := by
    unfold FinFieldOps.sqUnit
    have := h.toDomain.isUnit u
    rw [this, @decide_eq_true _ (Classical.propDecidable _) (by rw [hu1]; exact isUnit_one)]
    rfl
  obtain ⟨c, c1, c2, c3⟩ := h.pgcd l (F.polyDerivative l) (Or.inl hmon.ne_zero)
  rw [h.toDomain.toRing.toSemi.polyDerivative, hder] at c3
  obtain ⟨w, w1, w2⟩ := h.pdiv l c c2.ne_zero ((c3 _).1 dvd_rfl).1
  have hc : polyVal v c = polyVal v l := eq_of_monic_of_associated c2 hmon
    (associated_of_dvd_dvd ((c3 _).1 dvd_rfl).1 ((c3 _).2 ⟨dvd_rfl, dvd_zero _⟩))
  have hw : polyVal v w = 1 := by
    rw [hc] at w2
    exact (mul_eq_right₀ hmon.ne_zero).1 w2.symm
  have e1 : F.sqLoop w c 1 ⟨u, []⟩ = some (c, ⟨u, []⟩) := by
    rw [FinFieldOps.sqLoop, if_pos ((h.polyEqOne w).2 hw)]
  have hc1 : ¬ F.polyEqual c F.P.one = true := by
    intro e
    have := (h.polyEqOne c).1 e
    rw [hc] at this
    rw [this, natDegree_one] at hnat
    exact hp.ne_zero hnat.symm
  have hexp : expand K F.charPow.1 (X - C b) = polyVal v c := by
    rw [hc, hl, map_sub, expand_X, expand_C]
  obtain ⟨r, q1, q2, -, -⟩ := rootCoeffs_spec h c (by
    intro k hk'
    rw [← hexp, coeff_expand hp.pos, if_neg hk'])
  have hr : polyVal v r = X - C b := by rw [q2, ← hexp, contract_expand _ hp.ne_zero]
  have hrm : (polyVal v r).Monic := by rw [hr]; exact monic_X_sub_C b
  have e3 : F.newMonic r = some ⟨F.one, r⟩ := by
    unfold FinFieldOps.newMonic
    have : F.polyIsMonic r = true := (h.toDomain.toRing.toSemi.polyIsMonic r one_ne_zero).2 hrm
    simp [this, assertThat]
  have hsq : Squarefree (polyVal v r) := by rw [hr]; exact (irreducible_X_sub_C b).squarefree
  obtain ⟨s, s1, s2, s3, s4⟩ := factorizeSquarefree_spec h _ ⟨F.one, r⟩ rfl (by rw [hone]; exact one_ne_zero) hrm (Or.inr (by
    intro π hπ hd hdv
    have m1 := Squarefree.mult_le hrm.ne_zero hsq hπ
    have m2 := (mult_pos_iff hπ hrm.ne_zero).2 hd
    have m3 := Nat.le_of_dvd m2 hdv
    have := hp.two_le
    omega))
  simp only at s2 s3 s4
  have hmult : ∀ π : K[X], Irreducible π → multiplicity π (polyVal v r ^ F.charPow.1) = multiplicity π (polyVal v r) * F.charPow.1 :=
    fun π hπ => by rw [mult_pow hπ hrm.ne_zero, mul_comm]
  have hgood : SqGood v (polyVal v r ^ F.charPow.1) (s.pow F.charPow.1).factors := by
    constructor
    · intro q hq
      obtain ⟨t, ht, rfl⟩ := List.mem_map.1 hq
      obtain ⟨a1, a2, a3, a4⟩ := s3.1 t ht
      refine ⟨a1, a2, Nat.mul_pos a3 hp.pos, fun π hπ => ?_⟩
      rw [a4 π hπ, hmult π hπ]
      simp only [Nat.mul_left_inj hp.ne_zero]
    · have : (s.pow F.charPow.1).factors.map Prod.snd = (s.factors.map Prod.snd).map (· * F.charPow.1) := by
        simp [SqFac.pow, Function.comp_def]
      rw [this]
      exact s3.2.map fun a b hab => Nat.eq_of_mul_eq_mul_right hp.pos hab
  have hs' : (F.sqMul ⟨u, []⟩ (s.pow F.charPow.1)) = ⟨F.mul u s.unit, (s.pow F.charPow.1).factors⟩ :=
    sqMul_append h (M := polyVal v r ^ F.charPow.1) ⟨u, []⟩ (s.pow F.charPow.1) hgood
  have hun : v (F.mul u s.unit) = 1 := by rw [h.toDomain.toRing.toSemi.mul, s2, hone, hu1, one_mul]
  obtain ⟨t1, t2⟩ := SqGood.valid (hrm.pow F.charPow.1) ⟨F.mul u s.unit, (s.pow F.charPow.1).factors⟩
    (by rw [hun]; exact one_ne_zero) hgood (by
      intro π hπ hpos
      rw [hmult π hπ] at hpos ⊢
      obtain ⟨q, hq, e⟩ := s4 π hπ (Nat.pos_of_mul_pos_right hpos)
      exact ⟨(q.1, q.2 * F.charPow.1), List.mem_map.2 ⟨q, hq, rfl⟩, by simp only [e]⟩)
  refine ⟨⟨F.mul u s.unit, (s.pow F.charPow.1).factors⟩, ?_, t1, ?_⟩
  · simp only [e0, c1, w1, e1, hc1, q1, e3, s1, hs', Option.bind_eq_bind, Option.bind_some]
    rfl
  · rw [t2]
    simp only [hun, map_one, one_mul]
    rw [hr, sub_pow_char, C_pow]

theorem exists_pow_ne (h : F.Models v) (hk : F.charPow.2 ≠ 1) : ∃ b : K, b ^ F.charPow.1 ≠ b := by
  classical
  haveI := h.finite
  haveI : Fintype K := Fintype.ofFinite K
  have hp := h.prime
  have hk0 : F.charPow.2 ≠ 0 := by
    intro e
    have hcd := h.card
    rw [e, pow_zero] at hcd
    exact absurd (Finite.one_lt_card (α := K)) (by omega)
  by_contra hcon
  push Not at hcon
  have hne : (X ^ F.charPow.1 - X : K[X]) ≠ 0 := FiniteField.X_pow_card_sub_X_ne_zero K hp.one_lt
  have hroots : (Finset.univ : Finset K) ⊆ (X ^ F.charPow.1 - X : K[X]).roots.toFinset := by
    intro b _
    rw [Multiset.mem_toFinset, mem_roots hne]
    simp [hcon b]
  have h1 := Finset.card_le_card hroots
  have h2 := (Multiset.toFinset_card_le (X ^ F.charPow.1 - X : K[X]).roots).trans (card_roots' _)
  rw [FiniteField.X_pow_card_sub_X_natDegree_eq K hp.one_lt] at h2
  rw [Finset.card_univ, ← Nat.card_eq_fintype_card, h.card] at h1
  have h3 : F.charPow.1 ^ 1 < F.charPow.1 ^ F.charPow.2 := Nat.pow_lt_pow_right hp.one_lt (by omega)
  rw [pow_one] at h3
  omega

end

end Verif.Rings
