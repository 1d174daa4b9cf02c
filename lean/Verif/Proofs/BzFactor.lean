import Verif.Proofs.BzModular
import Mathlib.RingTheory.Polynomial.GaussLemma
import Mathlib.FieldTheory.Perfect

/-!
# The Berlekamp–Zassenhaus algorithm for primitive squarefree polynomials
-/

namespace Verif.Rings

open Polynomial

/-! ## Good primes -/

/-- a rational polynomial is a rational multiple of an integer polynomial -/
theorem exists_int_multiple (A : ℚ[X]) : ∃ (b : ℤ) (Q : ℤ[X]), b ≠ 0 ∧ Q.map (Int.castRingHom ℚ) = C (b : ℚ) * A := by
  obtain ⟨b, hb, h⟩ := IsLocalization.integerNormalization_spec (nonZeroDivisors ℤ) A
  refine ⟨b, IsLocalization.integerNormalization (nonZeroDivisors ℤ) A, nonZeroDivisors.ne_zero hb, ?_⟩
  rw [show Int.castRingHom ℚ = algebraMap ℤ ℚ from rfl, h]
  ext i
  simp

theorem squarefree_map_rat {F : ℤ[X]} (hF : F.IsPrimitive) (hs : Squarefree F) : Squarefree (F.map (Int.castRingHom ℚ)) := by
  intro x hx
  have hF0 : F.map (Int.castRingHom ℚ) ≠ 0 := (Polynomial.map_ne_zero_iff Int.cast_injective).2 hF.ne_zero
  have hx0 : x ≠ 0 := by rintro rfl; exact hF0 (zero_dvd_iff.1 (by simpa using hx))
  obtain ⟨b, Q, hb, hQ⟩ := exists_int_multiple x
  have hQ0 : Q ≠ 0 := by
    rintro rfl
    rw [Polynomial.map_zero] at hQ
    exact mul_ne_zero (C_ne_zero.2 (Int.cast_ne_zero.2 hb)) hx0 hQ.symm
  have hass : Associated (Q.primPart.map (Int.castRingHom ℚ)) x := by
    have h1 : C ((Q.content : ℤ) : ℚ) * Q.primPart.map (Int.castRingHom ℚ) = C (b : ℚ) * x := by
      rw [← hQ]
      conv_rhs => rw [Q.eq_C_content_mul_primPart]
      rw [Polynomial.map_mul, map_C]; rfl
    have hu1 : IsUnit (C ((Q.content : ℤ) : ℚ)) := isUnit_C.2 (IsUnit.mk0 _ (Int.cast_ne_zero.2 fun e => hQ0 (content_eq_zero_iff.1 e)))
    have hu2 : IsUnit (C (b : ℚ)) := isUnit_C.2 (IsUnit.mk0 _ (Int.cast_ne_zero.2 hb))
    exact ((associated_unit_mul_left _ _ hu1).symm.trans (h1 ▸ associated_unit_mul_left _ _ hu2))
  have hd : Q.primPart * Q.primPart ∣ F := by
    rw [IsPrimitive.Int.dvd_iff_map_cast_dvd_map_cast _ _ (prim_mul Q.isPrimitive_primPart Q.isPrimitive_primPart), Polynomial.map_mul]
    exact (hass.mul_mul hass).dvd.trans hx
  have hu := hs _ hd
  exact hass.isUnit (hu.map (mapRingHom (Int.castRingHom ℚ)))

/-- all but finitely many primes are good -/
theorem exists_good {F : ℤ[X]} (hF : F.IsPrimitive) (hs : Squarefree F) :
    ∃ N : ℤ, N ≠ 0 ∧ ∀ p : ℤ, Prime p → ¬ p ∣ N → ¬ p ∣ F.leadingCoeff ∧ Squarefree (redMod p F) := by
  have hsep : (F.map (Int.castRingHom ℚ)).Separable := PerfectField.separable_iff_squarefree.2 (squarefree_map_rat hF hs)
  obtain ⟨A, B, hAB⟩ := hsep
  obtain ⟨a, P, ha, hP⟩ := exists_int_multiple A
  obtain ⟨b, Q, hb, hQ⟩ := exists_int_multiple B
  have hinj : Function.Injective (mapRingHom (Int.castRingHom ℚ)) := map_injective _ Int.cast_injective
  have hid : C b * P * F + C a * Q * derivative F = C (a * b) := by
    apply hinj
    simp only [map_add, map_mul, coe_mapRingHom, hP, hQ, map_C, ← derivative_map]
    rw [derivative_map] at *
    simp only [eq_intCast]
    have : C (b : ℚ) * (C (a : ℚ) * A) * F.map (Int.castRingHom ℚ) + C (a : ℚ) * (C (b : ℚ) * B) * (derivative F).map (Int.castRingHom ℚ) =
        C (a : ℚ) * C (b : ℚ) * (A * F.map (Int.castRingHom ℚ) + B * (derivative F).map (Int.castRingHom ℚ)) := by ring
    rw [this, hAB, mul_one]
  refine ⟨a * b * F.leadingCoeff, mul_ne_zero (mul_ne_zero ha hb) (leadingCoeff_ne_zero.2 hF.ne_zero), ?_⟩
  intro p hp hpN
  refine ⟨fun hd => hpN (hd.mul_left _), ?_⟩
  haveI hpi : (Ideal.span {p}).IsMaximal :=
    PrincipalIdealRing.isMaximal_of_irreducible hp.irreducible
  letI : Field (ℤ ⧸ Ideal.span {p}) := Ideal.Quotient.field _
  have hab : Ideal.Quotient.mk (Ideal.span {p}) (a * b) ≠ 0 := by
    rw [Ne, Ideal.Quotient.eq_zero_iff_mem, Ideal.mem_span_singleton]
    exact fun hd => hpN (hd.mul_right _)
  have hsep' : (redMod p F).Separable := by
    have h1 := congrArg (mapRingHom (Ideal.Quotient.mk (Ideal.span {p}))) hid
    simp only [map_add, map_mul, coe_mapRingHom, map_C] at h1
    refine ⟨C (Ideal.Quotient.mk (Ideal.span {p}) (a * b))⁻¹ * ((C b * P).map (Ideal.Quotient.mk (Ideal.span {p}))),
      C (Ideal.Quotient.mk (Ideal.span {p}) (a * b))⁻¹ * ((C a * Q).map (Ideal.Quotient.mk (Ideal.span {p}))), ?_⟩
    rw [derivative_map, mul_assoc, mul_assoc, ← mul_add, Polynomial.map_mul, Polynomial.map_mul, map_C, map_C, h1, ← C_mul, ← C_mul, ← map_mul,
      inv_mul_cancel₀ hab, C_1]
  exact hsep'.squarefree

/-! ## One prime -/

section
variable {factor : Int → Option (Option (Factored Int))} (hf : (intUfd factor).Models (id : Int → Int))
include hf

theorem prime_isIrreducibleBy {p : ℕ} (hp : p.Prime) : isIrreducibleBy factor (p : ℤ) = some true := by
  have hpi : Prime (p : ℤ) := Nat.prime_iff_prime_int.1 hp
  obtain ⟨f, f1, f2, f3⟩ := hf.factor_ne (p : ℤ) hpi.ne_zero
  have h1 : f.isIrreducible = true := by
    rw [Factored.C43_is_irreducible intOps_models.toFav f f2]
    rw [Factored.C43_expand intOps_models.toFav f]
    change Irreducible (f.denote (id : Int → Int))
    rw [f3]
    exact hpi.irreducible
  have h2 : factor (p : ℤ) = some (some f) := f1
  rw [isIrreducibleBy, h2]
  simp [h1]

theorem bzAtPrime_spec (rand : Nat → Int) (L : List Int) (M p : Nat) (hp : p.Prime)
    (hr : FairStream (fun a : Int => (a : ZMod (p : ℤ).natAbs)) rand) (hd : 0 < (polyVal (id : Int → Int) L).natDegree) :
    (bzAtPrime factor rand L (polyVal (id : Int → Int) L).natDegree M p = some none ∧
      ((p : ℤ) ∣ (polyVal (id : Int → Int) L).leadingCoeff ∨ ¬ Squarefree (redMod p (polyVal (id : Int → Int) L)))) ∨
    ∃ t fs, bzAtPrime factor rand L (polyVal (id : Int → Int) L).natDegree M p = some (some t) ∧ ModStage L M p t fs := by
  have hpi : Prime (p : ℤ) := Nat.prime_iff_prime_int.1 hp
  have hirr : Irreducible (id (p : ℤ)) := hpi.irreducible
  have hq := (intOps_models.quotientField p hirr).1
  have hmap : polyVal (fun a : ℤ => Ideal.Quotient.mk (Ideal.span {id (p : ℤ)}) (id a)) L = redMod p (polyVal (id : Int → Int) L) :=
    polyVal_comp (Ideal.Quotient.mk (Ideal.span {(p : ℤ)})) (id : Int → Int) L
  have hnf := intOps_models.newField factor p (prime_isIrreducibleBy hf hp) hpi.ne_zero
  have hunf : bzAtPrime factor rand L (polyVal (id : Int → Int) L).natDegree M p =
      if (intOps.quotientField p).polyDegree L = some (polyVal (id : Int → Int) L).natDegree then bzModular factor rand L M p else some none := by
    rw [bzAtPrime, hnf]; rfl
  rw [hunf]
  by_cases hlc : (p : ℤ) ∣ (polyVal (id : Int → Int) L).leadingCoeff
  · left
    refine ⟨?_, Or.inl hlc⟩
    rw [if_neg]
    intro e
    have hne : polyVal (fun a : ℤ => Ideal.Quotient.mk (Ideal.span {id (p : ℤ)}) (id a)) L ≠ 0 := by
      intro h0
      rw [hq.toRing.toSemi.polyDegree_none L h0] at e
      cases e
    rw [hq.toRing.toSemi.polyDegree_some L hne, Option.some.injEq, hmap] at e
    rw [hmap] at hne
    have h1 := leadingCoeff_ne_zero.2 hne
    rw [leadingCoeff, e, coeff_map] at h1
    exact h1 (Ideal.Quotient.eq_zero_iff_mem.2 (Ideal.mem_span_singleton.2 hlc))
  · have hlc' : Ideal.Quotient.mk (Ideal.span {(p : ℤ)}) (polyVal (id : Int → Int) L).leadingCoeff ≠ 0 := by
      rw [Ne, Ideal.Quotient.eq_zero_iff_mem, Ideal.mem_span_singleton]; exact hlc
    have hne : redMod p (polyVal (id : Int → Int) L) ≠ 0 := by
      intro h0
      have := congrArg (fun q => coeff q (polyVal (id : Int → Int) L).natDegree) h0
      simp only [coeff_map, coeff_zero] at this
      exact hlc' this
    rw [if_pos]
    · rcases bzModular_spec factor rand L M p hp (prime_isIrreducibleBy hf hp) hr hlc hd with h | h
      · exact Or.inl ⟨h.1, Or.inr h.2⟩
      · exact Or.inr h
    · rw [hq.toRing.toSemi.polyDegree_some L (by rw [hmap]; exact hne), hmap, natDegree_map_of_leadingCoeff_ne_zero _ hlc']

end

/-- a polynomial that does not split modulo a prime is irreducible -/
theorem ModFact.irreducible {p : ℤ} {F : ℤ[X]} {g : ℕ → ℤ[X]} {n : ℕ} (h : ModFact p 1 F (Finset.range n) g) (hn : n = 1)
    (hprim : F.IsPrimitive) (hd : 0 < F.natDegree) : Irreducible F := by
  subst hn
  refine ⟨fun hu => by rw [natDegree_eq_zero_of_isUnit hu] at hd; omega, fun {G H} e => ?_⟩
  obtain ⟨S, hS, hi⟩ := h.split e
  obtain ⟨hG, hH⟩ := lc_of_mul e h.lc
  have hc := h.cancel e hS hi
  rw [Finset.range_one, Finset.subset_singleton_iff] at hS
  rcases hS with rfl | rfl
  · left
    have := h.natDegree_of_is (by simp) hG hi
    exact isUnit_of_prim_natDegree (isPrim_of_dvd hprim ⟨H, e⟩) (by simpa using this)
  · right
    have := h.natDegree_of_is (by simp) hH hc
    exact isUnit_of_prim_natDegree (isPrim_of_dvd hprim ⟨G, by rw [e, mul_comm]⟩) (by simpa using this)

/-- the bound on the coefficients of factors -/
theorem small_of_big {F : ℤ[X]} {M : ℤ} (h2 : 2 ≤ F.natDegree)
    (hM : ((2 * (l1 F * F.natDegree.choose (F.natDegree / 2)) : ℕ) : ℤ) ≤ M) (G H : ℤ[X]) (e : F = G * H) (hH : 0 < H.natDegree) (i : ℕ) :
    2 * |H.leadingCoeff * G.coeff i| < M := by
  have hF : F ≠ 0 := by rintro rfl; simp at h2
  have hG0 : G ≠ 0 := by rintro rfl; rw [zero_mul] at e; exact hF e
  have hH0 : H ≠ 0 := by rintro rfl; rw [mul_zero] at e; exact hF e
  have hdeg : F.natDegree = G.natDegree + H.natDegree := by rw [e, natDegree_mul hG0 hH0]
  have h1 := mahler_factor F G H hF e i
  have h3 := choose_middle_lt (show G.natDegree < F.natDegree by omega) h2
  have h4 : 0 < l1 F := by
    have h5 := mahler_factor F F 1 hF (by rw [mul_one]) F.natDegree
    rw [leadingCoeff_one, one_mul, coeff_natDegree] at h5
    have h6 : 0 < F.leadingCoeff.natAbs := Int.natAbs_pos.2 (leadingCoeff_ne_zero.2 hF)
    exact Nat.pos_of_ne_zero fun e => by rw [e, mul_zero] at h5; omega
  have h7 : (H.leadingCoeff * G.coeff i).natAbs < l1 F * F.natDegree.choose (F.natDegree / 2) := by
    refine h1.trans_lt ?_
    rw [mul_comm]
    exact Nat.mul_lt_mul_of_pos_left h3 h4
  rw [← Int.natCast_natAbs]
  omega

/-! ## All primes -/

/-- What is claimed about a factoring algorithm for primitive squarefree polynomials. -/
def BzGood (L : List Int) (r : Factored (List Int)) : Prop :=
  r.Valid intOps.toFavOps.poly (polyVal (id : Int → Int)) ∧
  Associated (r.denote (polyVal (id : Int → Int))) (polyVal (id : Int → Int) L) ∧
  (0 < (polyVal (id : Int → Int) L).leadingCoeff → r.denote (polyVal (id : Int → Int)) = polyVal (id : Int → Int) L) ∧
  (Irreducible (polyVal (id : Int → Int) L) → r.denote (polyVal (id : Int → Int)) = polyVal (id : Int → Int) L) ∧
  ((polyVal (id : Int → Int) L).leadingCoeff < 0 → AllLinear (polyVal (id : Int → Int) L) → Even (polyVal (id : Int → Int) L).natDegree →
    4 ≤ (polyVal (id : Int → Int) L).natDegree → r.denote (polyVal (id : Int → Int)) = -polyVal (id : Int → Int) L)

/-- the search after the modular stage -/
theorem finish_spec (L : List Int) (M : ℕ) (p : ℤ) (t : HenselFact ℤ) (fs : List (List ℤ)) (h : ModStage L M p t fs) (hp : 0 < p)
    (hprim : (polyVal (id : Int → Int) L).IsPrimitive) (hd : 0 < (polyVal (id : Int → Int) L).natDegree)
    (hM : 2 * (l1 (polyVal (id : Int → Int) L) * (polyVal (id : Int → Int) L).natDegree.choose ((polyVal (id : Int → Int) L).natDegree / 2)) ≤ M)
    (hlt : (polyVal (id : Int → Int) L).natDegree < machineRange) :
    ∃ b r, BzState.finish ⟨L, (polyVal (id : Int → Int) L).natDegree, M⟩ t = some b ∧ b.factorSubsets = some r ∧ BzGood L r := by
  have hne := hprim.ne_zero
  have hmod : intOps.henselModulus t = p ^ t.n := by rw [← h.i]; exact intOps_models.toSemi.natPow _ _
  obtain ⟨lc, l1, l2⟩ := intOps_models.toSemi.polyLeadingCoeff_some L hne
  change lc = _ at l2
  refine ⟨⟨L, lc, (polyVal (id : Int → Int) L).natDegree, p ^ t.n, t.factors⟩, ?_⟩
  have hfin : BzState.finish ⟨L, (polyVal (id : Int → Int) L).natDegree, M⟩ t =
      some ⟨L, lc, (polyVal (id : Int → Int) L).natDegree, p ^ t.n, t.factors⟩ := by
    rw [BzState.finish, ← hmod]
    simp only [l1, Option.bind_eq_bind, Option.bind_some]
  rcases (by
    have : fs.length ≠ 0 := by
      intro e
      have := h.mf.natDegree_of_is (Finset.Subset.refl _) h.mf.lc h.mf.cong
      rw [e] at this
      simp at this
      omega
    omega : fs.length = 1 ∨ 2 ≤ fs.length) with h1 | h2
  · have hirr := h.mf.irreducible h1 hprim hd
    have hfac : t.factors = [L] := by
      rw [HenselFact.factors, h.leaf.1 h1, h.h]; rfl
    have hMpos : 0 < p ^ t.n := pow_pos hp _
    obtain ⟨dm, root, d1, -, -, -⟩ := DmTest.new_spec (p ^ t.n) hMpos L hd [L] (by simpa using hd)
    have hF := intOps_models.toFav.poly
    have hone : polyVal (id : Int → Int) (intOps.toFavOps.poly).one = 1 := hF.toDomain.toRing.toSemi.one
    obtain ⟨irr, i1, i2, i3⟩ := Factored.factoredIrreducible_spec hF L hirr
    have hov : (Factored.factoredOne intOps.toFavOps.poly).Valid intOps.toFavOps.poly (polyVal (id : Int → Int)) :=
      ⟨by rw [Factored.factoredOne, hone]; exact isUnit_one, by simp [Factored.factoredOne], by simp [Factored.factoredOne],
        by simp [Factored.factoredOne], by simp [Factored.factoredOne]⟩
    obtain ⟨fac, f1, f2, f3⟩ := Factored.mul_spec hF (Factored.factoredOne intOps.toFavOps.poly) irr hov.fav i2.fav
    have hden : fac.denote (polyVal (id : Int → Int)) = polyVal (id : Int → Int) L := by
      rw [f2, i3]; simp [Factored.denote, Factored.factoredOne, hone]
    refine ⟨fac, hfin, ?_, f3 hov i2, by rw [hden], fun _ => hden, fun _ => hden, fun _ hlin _ h4 => absurd (hlin _ hirr dvd_rfl) (by omega)⟩
    rw [BzPrime.factorSubsets, hfac]
    simp only [d1, intOps_models.newRing (p ^ t.n) (by exact hMpos.ne'), Option.bind_eq_bind, Option.bind_some, List.length_singleton]
    rw [bzOuter, if_neg (by norm_num)]
    simp only [Option.bind_some, bzLast, Nat.zero_lt_one, if_true, i1, f1, Option.bind_eq_bind]
  · obtain ⟨m1, m2⟩ := h.mf' h2
    have hdeg := m2.natDegree_of_is (Finset.Subset.refl _) m2.lc m2.cong
    have hd2 : 2 ≤ (polyVal (id : Int → Int) L).natDegree := by
      rw [hdeg]
      calc 2 ≤ ∑ i ∈ Finset.range t.factors.length, 1 := by simp; omega
        _ ≤ _ := Finset.sum_le_sum fun i hi => m2.pos hi
    have hctx : BzCtx ⟨L, lc, (polyVal (id : Int → Int) L).natDegree, p ^ t.n, t.factors⟩ p t.n :=
      { ppos := hp
        modulus := rfl
        lc := l2
        mf := m2
        prim := hprim
        two := by rw [m1]; exact h2
        small := small_of_big hd2 (le_trans (by exact_mod_cast hM) h.big)
        deg := hlt }
    obtain ⟨r, r1, r2⟩ := BzPrime.factorSubsets_spec hctx
    exact ⟨r, hfin, r1, r2⟩

section
variable {factor : Int → Option (Option (Factored Int))} (hf : (intUfd factor).Models (id : Int → Int))
  {rand : Nat → Nat → Int} (hr : ∀ p : ℕ, p.Prime → FairStream (fun a : Int => (a : ZMod (p : ℤ).natAbs)) (rand p))
include hf hr

theorem nextPrime_spec (L : List Int) (M : ℕ) (hprim : (polyVal (id : Int → Int) L).IsPrimitive)
    (hd : 0 < (polyVal (id : Int → Int) L).natDegree) (hs : Squarefree (polyVal (id : Int → Int) L))
    (hM : 2 * (l1 (polyVal (id : Int → Int) L) * (polyVal (id : Int → Int) L).natDegree.choose ((polyVal (id : Int → Int) L).natDegree / 2)) ≤ M)
    (hlt : (polyVal (id : Int → Int) L).natDegree < machineRange) (gen : Natural.PrimeGenerator) (hg : Natural.PGInv gen) :
    ∃ b r, BzState.nextPrime factor rand ⟨L, (polyVal (id : Int → Int) L).natDegree, M⟩ gen = some b ∧ b.factorSubsets = some r ∧ BzGood L r := by
  obtain ⟨N, hN, hgood⟩ := exists_good hprim hs
  obtain ⟨k, hk⟩ : ∃ k, N.natAbs < gen.n + k := ⟨N.natAbs + 1, by omega⟩
  induction k generalizing gen with
  | zero =>
    obtain ⟨p, g', n1, n2, n3, n4, n5, -⟩ := Natural.pg_next hg
    rw [BzState.nextPrime, n1]
    simp only [Option.bind_eq_bind, Option.bind_some, BzState.atPrime]
    rcases bzAtPrime_spec hf (rand p) L M p n4 (hr p n4) hd with ⟨a1, a2⟩ | ⟨t, fs, a1, a2⟩
    · exfalso
      have := hgood p (Nat.prime_iff_prime_int.1 n4) (fun hdv => by
        have := Int.natAbs_le_of_dvd_ne_zero hdv hN
        simp at this
        omega)
      rcases a2 with a2 | a2
      · exact this.1 a2
      · exact a2 this.2
    · obtain ⟨b, r, b1, b2, b3⟩ := finish_spec L M p t fs a2 (by exact_mod_cast n4.pos) hprim hd hM hlt
      refine ⟨b, r, ?_, b2, b3⟩
      simp only [a1, b1, Option.bind_some, Option.map_some]
  | succ k ih =>
    obtain ⟨p, g', n1, n2, n3, n4, n5, -⟩ := Natural.pg_next hg
    rw [BzState.nextPrime, n1]
    simp only [Option.bind_eq_bind, Option.bind_some, BzState.atPrime]
    rcases bzAtPrime_spec hf (rand p) L M p n4 (hr p n4) hd with ⟨a1, -⟩ | ⟨t, fs, a1, a2⟩
    · obtain ⟨b, r, b1, b2, b3⟩ := ih g' n2 (by omega)
      refine ⟨b, r, ?_, b2, b3⟩
      simp only [a1, b1, Option.bind_some]
    · obtain ⟨b, r, b1, b2, b3⟩ := finish_spec L M p t fs a2 (by exact_mod_cast n4.pos) hprim hd hM hlt
      refine ⟨b, r, ?_, b2, b3⟩
      simp only [a1, b1, Option.bind_some, Option.map_some]

/-- The function given to Yun's algorithm factors primitive squarefree polynomials up to a unit, and exactly when the leading
coefficient is positive. -/
theorem bzSqfree_spec (L : List Int) (hprim : (polyVal (id : Int → Int) L).IsPrimitive) (hs : Squarefree (polyVal (id : Int → Int) L))
    (hlt : (polyVal (id : Int → Int) L).natDegree < machineRange) : ∃ r, bzSqfree factor rand L = some r ∧ BzGood L r := by
  rw [bzSqfree, intOps_models.toSemi.polyDegree_some L hprim.ne_zero]
  simp only [Option.bind_eq_bind, Option.bind_some]
  split
  · rename_i h0
    have hu := isUnit_of_prim_natDegree hprim h0
    refine ⟨_, rfl, ⟨hu, by simp [Factored.factoredUnit], by simp [Factored.factoredUnit], by simp [Factored.factoredUnit],
      by simp [Factored.factoredUnit]⟩, ?_, ?_, ?_, fun _ _ _ h4 => absurd h4 (by omega)⟩ <;> simp [Factored.denote, Factored.factoredUnit]
  · rename_i h0
    obtain ⟨b, r, b1, b2, b3⟩ := nextPrime_spec hf hr L _ hprim (by omega) hs le_rfl hlt _ Natural.pgInv_new
    refine ⟨r, ?_, b3⟩
    have h1 : ((polyVal (id : Int → Int) L).natDegree != 0) = true := by simpa using h0
    rw [bzGeneral, BzState.new, mignotteBound_some L hprim.ne_zero, intOps_models.toSemi.polyDegree_some L hprim.ne_zero]
    simp only [Option.bind_eq_bind, Option.bind_some, assertThat, h1, if_true, b1, b2]

end

end Verif.Rings
