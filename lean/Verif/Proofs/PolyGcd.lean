import Verif.Proofs.Resultant
import Mathlib.FieldTheory.Perfect
import Mathlib.RingTheory.Polynomial.GaussLemma

/-!
# Squarefreeness, discriminants, primitive gcds, squarefree parts
-/

namespace Verif.Rings

open Polynomial

section Dom
variable {α R K : Type} [CommRing R] [Field K] [Algebra R K] {S : DomainOps α} {v : α → R} (h : S.Models v)
include h

theorem polyIsSquarefree_spec [IsFractionRing R K] (p : List α) (hp : polyVal v p ≠ 0) :
    ∃ b, S.polyIsSquarefree p = some b ∧ (b = true ↔ (toFrac K (polyVal v p)).Separable) := by
  haveI := h.domain
  have hinj : Function.Injective (algebraMap R K) := IsFractionRing.injective R K
  obtain ⟨g, h1, h2, h3⟩ := polySubresultantGcd_spec (K := K) h p (S.polyDerivative p) (fun e => hp e.1)
  refine ⟨(polyVal v g).natDegree == 0, ?_, ?_⟩
  · rw [DomainOps.polyIsSquarefree, h1]
    simp only [Option.bind_eq_bind, Option.bind_some]
    rw [h.toSemi.polyDegree_some g h2]
    rfl
  rw [h.toSemi.polyDerivative] at h3
  rw [Polynomial.Separable]
  rw [← Ideal.isCoprime_span_singleton_iff, Ideal.isCoprime_iff_sup_eq, ← Ideal.span_union, Set.singleton_union, derivative_map, ← h3,
    Ideal.span_singleton_eq_top, beq_iff_eq, isUnit_iff_degree_eq_zero]
  rw [← natDegree_map_eq_of_injective hinj, degree_eq_natDegree ((Polynomial.map_ne_zero_iff hinj).2 h2)]
  norm_cast

theorem polyIsSquarefree_zero (p : List α) (hp : polyVal v p = 0) : S.polyIsSquarefree p = none := by
  rw [DomainOps.polyIsSquarefree, polySubresultantGcd_zero h p _ hp (by rw [h.toSemi.polyDerivative, hp, derivative_zero])]
  rfl

omit h in
theorem discSign_eq (n : Nat) (hn : 0 < n) (x : R) :
    (if n % 4 = 0 ∨ n % 4 = 1 then x else -x) = (-1) ^ (n * (n - 1) / 2) * x := by
  obtain ⟨k, hk⟩ : ∃ k, n = 4 * k + n % 4 := ⟨n / 4, by omega⟩
  have hlt : n % 4 < 4 := Nat.mod_lt _ (by norm_num)
  have key (e m : Nat) (he : n * (n - 1) = 2 * (2 * e + m)) : ((-1 : R)) ^ (n * (n - 1) / 2) = (-1) ^ m := by
    rw [he, Nat.mul_div_cancel_left _ (by norm_num), pow_add, pow_mul]; simp
  interval_cases hm : n % 4
  · obtain ⟨j, rfl⟩ : ∃ j, k = j + 1 := ⟨k - 1, by omega⟩
    rw [key ((j + 1) * (4 * j + 3)) 0 (by rw [hk]; have : 4 * (j + 1) + 0 - 1 = 4 * j + 3 := by omega
                                          rw [this]; ring)]
    simp
  · rw [key (k * (4 * k + 1)) 0 (by rw [hk]; have : 4 * k + 1 - 1 = 4 * k := by omega
                                    rw [this]; ring)]
    simp
  · rw [key (k * (4 * k + 3)) 1 (by rw [hk]; have : 4 * k + 2 - 1 = 4 * k + 1 := by omega
                                    rw [this]; ring)]
    simp
  · rw [key (k * (4 * k + 5) + 1) 1 (by rw [hk]; have : 4 * k + 3 - 1 = 4 * k + 2 := by omega
                                        rw [this]; ring)]
    simp

theorem discSign_spec (n : Nat) (hn : 0 < n) (d : α) : v (S.discSign n d) = (-1) ^ (n * (n - 1) / 2) * v d := by
  rw [← discSign_eq n hn, RingOps.discSign]
  split
  · rfl
  · rw [h.neg]

/-- The discriminant when the derivative has the expected degree, or vanishes. -/
theorem polyDiscriminant_spec (p : List α) (hp : 0 < (polyVal v p).natDegree)
    (hd : (derivative (polyVal v p)).natDegree = (polyVal v p).natDegree - 1 ∨ derivative (polyVal v p) = 0) :
    ∃ d, S.polyDiscriminant p = some (some d) ∧ v d = (polyVal v p).discr := by
  haveI := h.domain
  have hp0 : polyVal v p ≠ 0 := fun e => by rw [e, natDegree_zero] at hp; exact absurd hp (lt_irrefl _)
  have hlc : (polyVal v p).leadingCoeff ≠ 0 := leadingCoeff_ne_zero.2 hp0
  have hres : ∃ s, S.polyResultant p (S.polyDerivative p) = some s ∧
      v s = resultant (polyVal v p) (derivative (polyVal v p)) (polyVal v p).natDegree ((polyVal v p).natDegree - 1) := by
    by_cases hz : derivative (polyVal v p) = 0
    · refine ⟨S.zero, polyResultant_zero h _ _ (Or.inr (by rw [h.toSemi.polyDerivative, hz])), ?_⟩
      rw [hz, h.zero, resultant_zero_right, zero_pow (by omega), zero_mul]
    · rcases hd with hd | hd
      swap
      · exact absurd hd hz
      obtain ⟨s, h1, h2⟩ := polyResultant_spec h p (S.polyDerivative p) hp0 (by rwa [h.toSemi.polyDerivative])
      refine ⟨s, h1, ?_⟩
      rw [h2, h.toSemi.polyDerivative, if_neg (by omega), hd]
  obtain ⟨s, h1, h2⟩ := hres
  have e := resultant_deriv (f := polyVal v p) (natDegree_pos_iff_degree_pos.1 hp)
  obtain ⟨q, q1, q2⟩ := h.div_unwrap s (S.polyCoeff p (polyVal v p).natDegree)
    (by rw [h.toSemi.polyCoeff]; exact hlc)
    (by rw [h.toSemi.polyCoeff, h2, e, coeff_natDegree]; exact ⟨_, by rw [mul_comm ((-1 : R) ^ _), mul_assoc]⟩)
  refine ⟨S.discSign (polyVal v p).natDegree q, ?_, ?_⟩
  · rw [DomainOps.polyDiscriminant, h.toSemi.polyDegree_some p hp0]
    simp only [if_neg (show ¬ (polyVal v p).natDegree = 0 by omega)]
    rw [h1]
    simp [q1]
  · rw [discSign_spec h _ hp]
    rw [h2, h.toSemi.polyCoeff, coeff_natDegree, e] at q2
    have e2 : (-1 : R) ^ ((polyVal v p).natDegree * ((polyVal v p).natDegree - 1) / 2) * (polyVal v p).discr = v q := by
      apply mul_right_cancel₀ hlc
      rw [← q2]; ring
    rw [← e2, ← mul_assoc, ← mul_pow]
    simp

theorem polyDiscriminant_const (p : List α) (hp : (polyVal v p).natDegree = 0) :
    S.polyDiscriminant p = some none := by
  rw [DomainOps.polyDiscriminant]
  by_cases hz : polyVal v p = 0
  · rw [h.toSemi.polyDegree_none p hz]
  · rw [h.toSemi.polyDegree_some p hz, hp]; rfl

end Dom

section Gauss
variable {α R K : Type} [CommRing R] [Field K] [Algebra R K] {S : GcdOps α} {v : α → R} (h : S.Models v)
include h

theorem GcdOps.Models.isGCDMonoid : IsGCDMonoid R := by
  haveI := h.domain
  rw [isGCDMonoid_iff_exists_gcd]
  refine ⟨inferInstance, fun a b => ?_⟩
  obtain ⟨x, rfl⟩ := h.surj a
  obtain ⟨y, rfl⟩ := h.surj b
  obtain ⟨g, -, ⟨h1, h2⟩, -⟩ := h.gcd x y
  refine ⟨v g, fun d => ⟨fun hd => h2 d (by simpa using hd), fun hd => ⟨hd.trans (h1 _ (by simp)), hd.trans (h1 _ (by simp))⟩⟩⟩

/-- Every nonzero polynomial is a constant times a primitive one. -/
theorem GcdOps.Models.exists_primitive (d : R[X]) (hd : d ≠ 0) : ∃ k d', k ≠ 0 ∧ d = C k * d' ∧ d'.IsPrimitive := by
  obtain ⟨p, rfl⟩ := h.toSemi.polyVal_surj d
  obtain ⟨g, p', -, h2, -, h4, h5, -⟩ := h.polyFactorPrimitive p hd
  exact ⟨v g, polyVal v p', h2, h4, h5⟩

theorem GcdOps.Models.gauss [IsFractionRing R K] {p q : R[X]} (hp : p.IsPrimitive) (hd : toFrac K p ∣ toFrac K q) : p ∣ q := by
  haveI := h.domain
  haveI := h.isGCDMonoid
  exact hp.dvd_of_fraction_map_dvd_fraction_map hd

/-- The gcd in `R[X]` from the gcd over the field of fractions. -/
theorem GcdOps.Models.gcd_of_span [IsFractionRing R K] (a b g : R[X]) (c : R) (hg : g.IsPrimitive)
    (hc : IsGcdOf {r | ∃ i, r = a.coeff i ∨ r = b.coeff i} c)
    (hs : Ideal.span {toFrac K g} = Ideal.span {toFrac K a, toFrac K b}) :
    IsGcdOf {a, b} (C c * g) := by
  haveI := h.domain
  have hinj : Function.Injective (algebraMap R K) := IsFractionRing.injective R K
  have hca : C c ∣ a := C_dvd_iff_dvd_coeff _ _ |>.2 fun i => hc.1 _ ⟨i, Or.inl rfl⟩
  have hcb : C c ∣ b := C_dvd_iff_dvd_coeff _ _ |>.2 fun i => hc.1 _ ⟨i, Or.inr rfl⟩
  have hga : toFrac K g ∣ toFrac K a := by
    rw [← Ideal.mem_span_singleton, hs]; exact Ideal.subset_span (by simp)
  have hgb : toFrac K g ∣ toFrac K b := by
    rw [← Ideal.mem_span_singleton, hs]; exact Ideal.subset_span (by simp)
  have key (x : R[X]) (hcx : C c ∣ x) (hgx : toFrac K g ∣ toFrac K x) : C c * g ∣ x := by
    by_cases hc0 : c = 0
    · rw [hc0, C_0] at hcx
      rw [zero_dvd_iff.1 hcx]; exact dvd_zero _
    obtain ⟨y, rfl⟩ := hcx
    apply mul_dvd_mul_left
    apply h.gauss (K := K) hg
    rw [toFrac, toFrac, Polynomial.map_mul, map_C] at hgx
    exact (isUnit_C_frac (K := K) c hc0).dvd_mul_left.1 hgx
  refine ⟨?_, ?_⟩
  · intro x hx
    rcases hx with rfl | rfl
    · exact key _ hca hga
    · exact key _ hcb hgb
  · intro d hd
    have hda := hd a (by simp)
    have hdb := hd b (by simp)
    by_cases hd0 : d = 0
    · exfalso
      have ha0 : a = 0 := by rw [hd0] at hda; exact zero_dvd_iff.1 hda
      have hb0 : b = 0 := by rw [hd0] at hdb; exact zero_dvd_iff.1 hdb
      rw [ha0, hb0] at hs
      simp only [toFrac, Polynomial.map_zero, Set.pair_eq_singleton] at hs
      have : Polynomial.map (algebraMap R K) g = 0 := by
        have : Polynomial.map (algebraMap R K) g ∈ Ideal.span {(0 : K[X])} := by rw [← hs]; exact Ideal.subset_span rfl
        simpa [Ideal.mem_span_singleton] using this
      exact hg.ne_zero ((Polynomial.map_eq_zero_iff hinj).1 this)
    obtain ⟨k, d', hk, rfl, hp⟩ := h.exists_primitive d hd0
    refine mul_dvd_mul (_root_.map_dvd C (hc.2 k ?_)) (h.gauss (K := K) hp ?_)
    · rintro r ⟨i, rfl | rfl⟩
      · exact (C_dvd_iff_dvd_coeff _ _).1 ((dvd_mul_right _ _).trans hda) i
      · exact (C_dvd_iff_dvd_coeff _ _).1 ((dvd_mul_right _ _).trans hdb) i
    · have : toFrac K g ∈ Ideal.span {toFrac K a, toFrac K b} := by rw [← hs]; exact Ideal.subset_span rfl
      rw [Ideal.mem_span_pair] at this
      obtain ⟨s, t, hst⟩ := this
      rw [← hst]
      exact dvd_add ((Polynomial.map_dvd _ ((dvd_mul_left _ _).trans hda)).mul_left _)
        ((Polynomial.map_dvd _ ((dvd_mul_left _ _).trans hdb)).mul_left _)

omit h in
theorem span_C_mul [IsDomain R] [IsFractionRing R K] (c : R) (hc : c ≠ 0) (g : R[X]) :
    Ideal.span {toFrac K (C c * g)} = Ideal.span {toFrac K g} := by
  rw [toFrac, Polynomial.map_mul, map_C]
  exact Ideal.span_singleton_mul_left_unit (isUnit_C_frac (K := K) c hc) _

omit h in
theorem span_pair_C_mul [IsDomain R] [IsFractionRing R K] (c d : R) (hc : c ≠ 0) (hd : d ≠ 0) (a b : R[X]) :
    Ideal.span {toFrac K (C c * a), toFrac K (C d * b)} = Ideal.span {toFrac K a, toFrac K b} := by
  rw [← Set.singleton_union, Ideal.span_union, span_C_mul c hc, span_C_mul d hd, ← Ideal.span_union, Set.singleton_union]

theorem polyGcdPrimSub_spec [IsFractionRing R K] (a b : List α) (ha : polyVal v a ≠ 0) (hb : polyVal v b ≠ 0) :
    ∃ g, S.polyGcdPrimSub a b = some g ∧ (polyVal v g).IsPrimitive ∧
      Ideal.span {toFrac K (polyVal v g)} = Ideal.span {toFrac K (polyVal v a), toFrac K (polyVal v b)} := by
  haveI := h.domain
  obtain ⟨ca, pa, a1, a2, -, a4, a5, -⟩ := h.polyFactorPrimitiveUnwrap a ha
  obtain ⟨cb, pb, b1, b2, -, b4, b5, -⟩ := h.polyFactorPrimitiveUnwrap b hb
  obtain ⟨gu, g1, g2, -⟩ := h.gcd ca cb
  obtain ⟨s, s1, s2, s3⟩ := polySubresultantGcd_spec (K := K) h.toDomain pa pb (fun e => a5.ne_zero e.1)
  obtain ⟨cs, ps, p1, p2, -, p4, p5, -⟩ := h.polyFactorPrimitiveUnwrap s s2
  have hgu : v gu ≠ 0 := fun e => a2 (zero_dvd_iff.1 (e ▸ g2.1 (v ca) (by simp)))
  have hm : polyVal v (S.polyMul (polyConst gu) ps) = C (v gu) * polyVal v ps := by
    rw [h.toSemi.polyMul, polyVal_const]
  have hm0 : polyVal v (S.polyMul (polyConst gu) ps) ≠ 0 := by
    rw [hm]; exact mul_ne_zero (by simpa using hgu) p5.ne_zero
  obtain ⟨ct, pt, t1, t2, -, t4, t5, -⟩ := h.polyFactorPrimitive _ hm0
  refine ⟨pt, ?_, t5, ?_⟩
  · rw [GcdOps.polyGcdPrimSub, if_neg (fun e => ha ((h.toSemi.poly.isZero a).1 e)),
      if_neg (fun e => hb ((h.toSemi.poly.isZero b).1 e)), GcdOps.polyGcdPrimSubCore, a1]
    simp only [Option.bind_eq_bind, Option.bind_some, b1, g1, s1, p1, GcdOps.polyPrimitivePart, t1, Option.map_some]
  · rw [a4, b4, span_pair_C_mul _ _ a2 b2, ← s3, p4, span_C_mul _ p2, ← span_C_mul _ t2, ← t4, hm, span_C_mul _ hgu]

theorem polyGcdPrimSub_zero (a b : List α) :
    (polyVal v a = 0 → S.polyGcdPrimSub a b = some b) ∧
    (polyVal v a ≠ 0 → polyVal v b = 0 → S.polyGcdPrimSub a b = some a) := by
  constructor
  · intro ha; rw [GcdOps.polyGcdPrimSub, if_pos ((h.toSemi.poly.isZero a).2 ha)]
  · intro ha hb
    rw [GcdOps.polyGcdPrimSub, if_neg (fun e => ha ((h.toSemi.poly.isZero a).1 e)), if_pos ((h.toSemi.poly.isZero b).2 hb)]

end Gauss

section Sqf
variable {K : Type} [Field K] [CharZero K]

/-- `F / gcd(F, F')` contains every irreducible factor of `F` exactly once. -/
theorem sqf_quotient (F G Q π : K[X]) (hF : F ≠ 0) (hQ : F = Q * G)
    (hG : Ideal.span {G} = Ideal.span {F, derivative F}) (hπ : Irreducible π) (hd : π ∣ F) :
    π ∣ Q ∧ ¬ π * π ∣ Q := by
  have hp : Prime π := hπ.prime
  obtain ⟨h, hFe, hh⟩ := (FiniteMultiplicity.of_prime_left hp hF).exists_eq_pow_mul_and_not_dvd
  generalize multiplicity π F = m' at hFe
  obtain ⟨k, rfl⟩ : ∃ k, m' = k + 1 := by
    cases m' with
    | zero => rw [pow_zero, one_mul] at hFe; rw [hFe] at hd; exact absurd hd hh
    | succ k => exact ⟨k, rfl⟩
  have hder : derivative F = π ^ k * (C ((k + 1 : Nat) : K) * derivative π * h + π * derivative h) := by
    rw [hFe, derivative_mul, derivative_pow_succ]
    push_cast; ring
  have hπ0 : π ≠ 0 := hπ.ne_zero
  have hGk : π ^ k ∣ G := by
    have : G ∈ Ideal.span {F, derivative F} := by rw [← hG]; exact Ideal.subset_span rfl
    obtain ⟨s, t, hst⟩ := Ideal.mem_span_pair.1 this
    rw [← hst, hder, hFe]
    exact dvd_add ⟨s * π * h, by ring⟩ ⟨t * (C ((k + 1 : Nat) : K) * derivative π * h + π * derivative h), by ring⟩
  obtain ⟨G₁, rfl⟩ := hGk
  have hQ₁ : Q * G₁ = π * h := by
    apply mul_left_cancel₀ (pow_ne_zero k hπ0)
    rw [hFe] at hQ
    rw [← mul_assoc (π ^ k) π h, ← pow_succ, hQ]; ring
  have hnG : ¬ π ∣ G₁ := by
    rintro ⟨G₂, rfl⟩
    have : π ^ k * (π * G₂) ∣ derivative F := by
      rw [← Ideal.mem_span_singleton, hG]; exact Ideal.subset_span (by simp)
    rw [hder] at this
    have := (dvd_mul_right π G₂).trans ((mul_dvd_mul_iff_left (pow_ne_zero k hπ0)).1 this)
    have h3 : π ∣ C ((k + 1 : Nat) : K) * derivative π * h := (dvd_add_left (dvd_mul_right _ _)).1 this
    rcases hp.dvd_or_dvd h3 with h4 | h4
    · have hu : IsUnit (C ((k + 1 : Nat) : K)) := by
        rw [isUnit_C, isUnit_iff_ne_zero]; exact_mod_cast Nat.succ_ne_zero k
      have h5 := hu.dvd_mul_left.1 h4
      have hdeg : 0 < π.natDegree := hπ.natDegree_pos
      have hne : derivative π ≠ 0 := fun e => by
        have := natDegree_eq_zero_of_derivative_eq_zero e
        omega
      have := natDegree_le_of_dvd h5 hne
      have := natDegree_derivative_lt (p := π) (by omega)
      omega
    · exact hh h4
  have hπQ : π ∣ Q := (hp.dvd_or_dvd (hQ₁ ▸ dvd_mul_right π h)).resolve_right hnG
  refine ⟨hπQ, ?_⟩
  rintro ⟨Q₂, rfl⟩
  apply hh
  have : π * h = π * (π * Q₂ * G₁) := by rw [← hQ₁]; ring
  rw [mul_left_cancel₀ hπ0 this]
  exact ⟨Q₂ * G₁, by ring⟩

end Sqf

section Part
variable {α R K : Type} [CommRing R] [Field K] [Algebra R K] {S : GcdOps α} {v : α → R} (h : S.Models v)
include h

theorem polyPrimSquarefreePart_zero (f : List α) (hf : polyVal v f = 0) : S.polyPrimSquarefreePart f = some f := by
  rw [GcdOps.polyPrimSquarefreePart, if_pos ((h.toSemi.poly.isZero f).2 hf)]

omit h in
theorem isPrimitive_of_dvd {p q : R[X]} (hp : p.IsPrimitive) (hd : q ∣ p) : q.IsPrimitive :=
  fun r hr => hp r (hr.trans hd)

theorem polyPrimSquarefreePart_spec [CharZero R] (f : List α) (hf : polyVal v f ≠ 0) :
    ∃ q, S.polyPrimSquarefreePart f = some q ∧ (polyVal v q).IsPrimitive ∧ Squarefree (polyVal v q) ∧
      polyVal v q ∣ polyVal v f ∧ ∀ π : R[X], Irreducible π → 0 < π.natDegree → π ∣ polyVal v f → π ∣ polyVal v q := by
  haveI := h.domain
  haveI := h.isGCDMonoid
  let K := FractionRing R
  haveI : CharZero K := charZero_of_injective_algebraMap (IsFractionRing.injective R K)
  have hinj : Function.Injective (algebraMap R K) := IsFractionRing.injective R K
  obtain ⟨g, s1, s2, s3⟩ := polySubresultantGcd_spec (K := K) h.toDomain f (S.polyDerivative f) (fun e => hf e.1)
  obtain ⟨cg, pg, g1, g2, -, g4, g5, -⟩ := h.polyFactorPrimitiveUnwrap g s2
  obtain ⟨cf, pf, f1, f2, -, f4, f5, -⟩ := h.polyFactorPrimitiveUnwrap f hf
  rw [h.toSemi.polyDerivative] at s3
  have hder : derivative (polyVal v f) = C (v cf) * derivative (polyVal v pf) := by rw [f4, derivative_C_mul]
  rw [hder, f4, span_pair_C_mul _ _ f2 f2, g4, span_C_mul _ g2] at s3
  have hdvd : polyVal v pg ∣ polyVal v pf := by
    apply h.gauss (K := K) g5
    rw [← Ideal.mem_span_singleton, s3]; exact Ideal.subset_span (by simp)
  obtain ⟨q, q1, q2⟩ := h.toDomain.poly.div_unwrap pf pg g5.ne_zero hdvd
  have hqp : (polyVal v q).IsPrimitive := isPrimitive_of_dvd f5 ⟨_, q2⟩
  have hF : toFrac K (polyVal v pf) ≠ 0 := (Polynomial.map_ne_zero_iff hinj).2 f5.ne_zero
  have hQ : toFrac K (polyVal v pf) = toFrac K (polyVal v q) * toFrac K (polyVal v pg) := by
    rw [toFrac, q2, Polynomial.map_mul]
  rw [toFrac, toFrac, toFrac, ← derivative_map] at s3
  refine ⟨q, ?_, hqp, ?_, ?_, ?_⟩
  · rw [GcdOps.polyPrimSquarefreePart, if_neg (fun e => hf ((h.toSemi.poly.isZero f).1 e)), s1]
    simp only [Option.bind_eq_bind, Option.bind_some, g1, f1]
    exact q1
  · intro d hd
    have hdp : d.IsPrimitive := isPrimitive_of_dvd hqp ((dvd_mul_right d d).trans hd)
    rw [hdp.isUnit_iff_isUnit_map (K := K)]
    by_contra hu
    have hd0 : d.map (algebraMap R K) ≠ 0 := (Polynomial.map_ne_zero_iff hinj).2 hdp.ne_zero
    obtain ⟨π, hπ, hπd⟩ := WfDvdMonoid.exists_irreducible_factor hu hd0
    have hdd : π * π ∣ toFrac K (polyVal v q) := by
      refine (mul_dvd_mul hπd hπd).trans ?_
      rw [← Polynomial.map_mul]; exact Polynomial.map_dvd _ hd
    refine (sqf_quotient _ _ _ π hF hQ s3 hπ ?_).2 hdd
    rw [hQ]; exact ((dvd_mul_right π π).trans hdd).mul_right _
  · rw [f4, q2]; exact ⟨C (v cf) * polyVal v pg, by ring⟩
  · intro π hπ hpos hd
    have hπp : π.IsPrimitive := by
      obtain ⟨k, d', hk, he, hp⟩ := h.exists_primitive π hπ.ne_zero
      rcases hπ.isUnit_or_isUnit he with hu | hu
      · rw [isUnit_C] at hu
        intro r hr
        rw [he, C_dvd_iff_dvd_coeff] at hr
        refine hp r ((C_dvd_iff_dvd_coeff _ _).2 fun i => ?_)
        have := hr i
        rw [coeff_C_mul] at this
        exact hu.dvd_mul_left.1 this
      · exfalso
        have h1 := natDegree_eq_zero_of_isUnit hu
        rw [he, natDegree_C_mul hk] at hpos
        omega
    apply h.gauss (K := K) hπp
    refine (sqf_quotient _ _ _ _ hF hQ s3 (hπp.irreducible_iff_irreducible_map_fraction_map.1 hπ) ?_).1
    have := Polynomial.map_dvd (algebraMap R K) hd
    rw [f4, Polynomial.map_mul, map_C] at this
    exact (isUnit_C_frac (K := K) (v cf) f2).dvd_mul_left.1 this

end Part
end Verif.Rings
