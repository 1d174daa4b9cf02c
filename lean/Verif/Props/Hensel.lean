import Verif.Proofs.HenselInto
import Verif.Props.PolyFactor

/-!
# Properties of Hensel lifting (C92-C95)

`S` presents a Euclidean domain `R`; for the integers `R = ℤ`, see `remOne_int`. `CongMod m A B` says `A ≡ B` modulo `m`,
coefficient by coefficient.
-/

namespace Verif.Rings

open Polynomial

/-- A remainder of one modulo a power of a prime number (a positive one) is one. -/
theorem remOne_int (p : Int) (hp : 1 < p) : RemOne intOps (id : Int → Int) p := by
  intro m k x r hk hm hx hr
  change m = p ^ k at hm
  change x = 1 at hx
  subst hm hx
  have h1 : 1 < p ^ k := one_lt_pow₀ hp hk.ne'
  have h0 : p ^ k ≠ 0 := by omega
  have e : intOps.rem 1 (p ^ k) = some (Int.fmod 1 (p ^ k)) := by
    have hz : intOps.isZero (p ^ k) = false := (intOps_models.toSemi.isZero_false (p ^ k)).2 h0
    unfold EucOps.rem
    rw [hz]
    simp only [Bool.false_eq_true, if_false]
    change (some (intQuorem 1 (p ^ k))).bind _ = _
    rw [intQuorem, if_neg h0]; rfl
  rw [e] at hr
  cases hr
  change Int.fmod 1 (p ^ k) = 1
  rw [Int.fmod_eq_emod_of_nonneg _ (by omega)]
  exact Int.emod_eq_of_lt (by omega) h1

section
variable {α R : Type} [CommRing R] [IsPrincipalIdealRing R] {S : EucOps α} {v : α → R} (h : S.Models v)
include h

/-- C92: `HenselFactorization::new` succeeds on monic polynomials, not constant and pairwise coprime modulo `p`, whose product
with the leading coefficient of `h` is `h` modulo `p ^ n` (`n = 1` when the Bézout coefficients are to be lifted). The
factorization is in order, its modulus is `p ^ n`, and `factors()` returns one polynomial for each given one, in the same
order and congruent to it modulo `p ^ n`, when at least two were given or `h` is monic. -/
theorem C92_new (lifted : Bool) (factor : α → Option (Option (Factored α))) (p : α) (hp : Irreducible (v p))
    (hf : isIrreducibleBy factor p = some true) (hr : RemOne S v p) (n : Nat) (hn : 0 < n) (hl : lifted = true → n = 1)
    (fs : List (List α)) (hne : fs ≠ []) (hm : ∀ f ∈ fs, (polyVal v f).Monic ∧ 0 < (polyVal v f).natDegree)
    (hco : fs.Pairwise fun f g => ∃ U W, CongMod (v p) (U * polyVal v f + W * polyVal v g) 1) (hh : List α)
    (hlc : ¬ v p ∣ (polyVal v hh).leadingCoeff)
    (hc : CongMod (v p ^ n) (polyVal v hh) (C (polyVal v hh).leadingCoeff * (fs.map (polyVal v)).prod)) :
    ∃ t, S.henselNew lifted factor p n hh fs = some t ∧ t.Valid v lifted ∧ t.h = hh ∧ t.i = p ∧ t.n = n ∧
      v (S.henselModulus t) = v p ^ n ∧
      (2 ≤ fs.length ∨ (polyVal v hh).Monic →
        List.Forall₂ (fun x y => CongMod (v p ^ n) (polyVal v x) (polyVal v y)) t.factors fs) ∧
      (fs.length = 1 → t.factors = [hh]) := by
  obtain ⟨t, t1, t2, t3, t4, t5, t6, t7⟩ := h.henselNew lifted factor p hp hf hr n hn hl fs hne hm hco hh hlc hc
  refine ⟨t, t1, t5, t4, t2, t3, ?_, t6, fun e => ?_⟩
  · rw [EucOps.henselModulus, h.toSemi.natPow, t2, t3]
  · rw [HenselFact.factors, t7.1 e, t4]; rfl

omit [IsPrincipalIdealRing R] in
/-- C92: `new` panics when there is no factor, when one is not monic, when `h` is zero, when the product is not `h` modulo
`p ^ n`, and when two factors are not coprime modulo `p`. -/
theorem C92_new_panics (lifted : Bool) (factor : α → Option (Option (Factored α))) (p : α) (hp : Irreducible (v p)) (n : Nat)
    (hn : 0 < n) (fs : List (List α)) (hh : List α)
    (hbad : fs = [] ∨ (∃ f ∈ fs, ¬ (polyVal v f).Monic) ∨ polyVal v hh = 0 ∨
      ¬ CongMod (v p ^ n) (polyVal v hh) (C (polyVal v hh).leadingCoeff * (fs.map (polyVal v)).prod) ∨
      ¬ fs.Pairwise fun f g => ∃ U W, CongMod (v p) (U * polyVal v f + W * polyVal v g) 1) :
    S.henselNew lifted factor p n hh fs = none := by
  cases e : S.henselNew lifted factor p n hh fs with
  | none => rfl
  | some t =>
    exfalso
    obtain ⟨h1, h2, h3, h4, h5⟩ := h.henselNew_only lifted factor p hp n hn fs hh t e
    rcases hbad with hb | ⟨f, hf, hb⟩ | hb | hb | hb
    · exact h1 hb
    · exact hb (h2 f hf)
    · exact h3 hb
    · exact hb h4
    · exact hb h5

omit [IsPrincipalIdealRing R] in
/-- C92: a factorization in order passes `check`, with the Bézout coefficients lifted or not. -/
theorem C92_check (lifted : Bool) (t : HenselFact α) (ht : t.Valid v lifted) : S.henselFactCheck lifted t = some true :=
  h.henselCheck lifted t.i t.n ht.pos ht.irreducible.ne_zero t.h t.prod ht.tree

/-- C93: any number of linear lifts of a factorization in order returns: `k` lifts raise the exponent by `k`; `h` is not
changed; the factors stay, in order, congruent to the old ones modulo the old modulus. When there is more than one factor, the
factors are monic, not constant, and their product with the leading coefficient of `h` is `h` modulo the new modulus. -/
theorem C93_linear_lift_partial (k : Nat) (t : HenselFact α) (ht : t.Valid v false) (hr : RemOne S v t.i) :
    ∃ t', S.henselLinearLifts k t = some t' ∧ t'.Valid v false ∧ t'.h = t.h ∧
      v (S.henselModulus t') = v t.i ^ (t.n + k) ∧
      List.Forall₂ (fun x y => CongMod (v t.i ^ t.n) (polyVal v x) (polyVal v y)) t'.factors t.factors ∧
      (2 ≤ t.factors.length →
        (∀ x ∈ t'.factors, (polyVal v x).Monic ∧ 0 < (polyVal v x).natDegree) ∧
        CongMod (v t.i ^ (t.n + k)) (polyVal v t.h) (C (polyVal v t.h).leadingCoeff * (t'.factors.map (polyVal v)).prod)) := by
  obtain ⟨t', a1, a2, a3, a4, a5, a6, a7⟩ := h.henselLinearLifts k t ht hr
  have hmod : v (S.henselModulus t') = v t.i ^ (t.n + k) := by rw [EucOps.henselModulus, h.toSemi.natPow, a3, a4]
  refine ⟨t', a1, a2, a5, hmod, a6, fun h2 => ?_⟩
  have hb : t'.prod ≠ .leaf := fun e => by
    rw [HenselFact.factors, a7.1 e] at h2
    simp [HenselProduct.factorList] at h2
  obtain ⟨b1, b2⟩ := h.hensel_factors false t' a2 hb
  rw [hmod, a5] at b2
  exact ⟨b1, b2⟩

/-- C94: any number of quadratic lifts of a factorization in order returns: each one doubles the exponent. -/
theorem C94_quadratic_lift_partial (k : Nat) (t : HenselFact α) (ht : t.Valid v true) (hr : RemOne S v t.i) :
    ∃ t', S.henselQuadraticLifts k t = some t' ∧ t'.Valid v true ∧ t'.h = t.h ∧
      v (S.henselModulus t') = v t.i ^ (t.n * 2 ^ k) ∧
      List.Forall₂ (fun x y => CongMod (v t.i ^ t.n) (polyVal v x) (polyVal v y)) t'.factors t.factors ∧
      (2 ≤ t.factors.length →
        (∀ x ∈ t'.factors, (polyVal v x).Monic ∧ 0 < (polyVal v x).natDegree) ∧
        CongMod (v t.i ^ (t.n * 2 ^ k)) (polyVal v t.h) (C (polyVal v t.h).leadingCoeff * (t'.factors.map (polyVal v)).prod)) := by
  obtain ⟨t', a1, a2, a3, a4, a5, a6, a7⟩ := h.henselQuadraticLifts k t ht hr
  have hmod : v (S.henselModulus t') = v t.i ^ (t.n * 2 ^ k) := by rw [EucOps.henselModulus, h.toSemi.natPow, a3, a4]
  refine ⟨t', a1, a2, a5, hmod, a6, fun h2 => ?_⟩
  have hb : t'.prod ≠ .leaf := fun e => by
    rw [HenselFact.factors, a7.1 e] at h2
    simp [HenselProduct.factorList] at h2
  obtain ⟨b1, b2⟩ := h.hensel_factors true t' a2 hb
  rw [hmod, a5] at b2
  exact ⟨b1, b2⟩

omit [IsPrincipalIdealRing R] h in
/-- C94: a factorization with lifted Bézout coefficients is one without (`dont_lift_bezout_coeffs`), with the same data. -/
theorem C94_dont_lift (t : HenselFact α) (ht : t.Valid v true) :
    t.dontLift.Valid v false ∧ t.dontLift.factors = t.factors ∧ S.henselModulus t.dontLift = S.henselModulus t :=
  ⟨⟨ht.irreducible, ht.pos, ht.tree.unlift⟩, rfl, rfl⟩

omit [IsPrincipalIdealRing R] h S in
/-- C93, C94: the lifted factors are determined by the factors modulo `p`: any two lists of monic polynomials that are congruent
modulo `p`, pairwise coprime modulo `p`, and have congruent products modulo `p ^ n`, are congruent modulo `p ^ n`. -/
theorem C93_unique [IsDomain R] (p : R) (hp : ¬ IsUnit p) (n : Nat) (fs gs : List (List α)) (hf : ∀ x ∈ fs, (polyVal v x).Monic)
    (hg : ∀ x ∈ gs, (polyVal v x).Monic)
    (hc : List.Forall₂ (fun x y => CongMod p (polyVal v x) (polyVal v y)) fs gs)
    (hco : fs.Pairwise fun f g => ∃ U W, CongMod p (U * polyVal v f + W * polyVal v g) 1)
    (hprod : CongMod (p ^ n) (fs.map (polyVal v)).prod (gs.map (polyVal v)).prod) :
    List.Forall₂ (fun x y => CongMod (p ^ n) (polyVal v x) (polyVal v y)) fs gs := by
  have := hensel_unique_list hp (l := fs.map (polyVal v)) (l' := gs.map (polyVal v)) (n := n) (by simpa using hf) (by simpa using hg)
    (by rw [List.forall₂_map_left_iff, List.forall₂_map_right_iff]; exact hc)
    (by rw [List.pairwise_map]; exact hco) hprod
  rw [List.forall₂_map_left_iff, List.forall₂_map_right_iff] at this
  exact this

/-- C95: `into_hensel_factorization` of a factorization modulo `p` (into monic polynomials) of a polynomial `h` whose degree does
not drop modulo `p`: `None` when a factor is repeated; otherwise a factorization in order, of `h`, modulo `p`, whose factors are
congruent to the given ones (when there are at least two or `h` is monic). -/
theorem C95_into_hensel (factor : α → Option (Option (Factored α))) (p : α) (hp : Irreducible (v p))
    (hf : isIrreducibleBy factor p = some true) (hr : RemOne S v p) (hh : List α)
    (hlc : ¬ v p ∣ (polyVal v hh).leadingCoeff) (hd : 0 < (polyVal v hh).natDegree) (fact : Factored (List α))
    (hv : fact.Valid (S.quotientField p).polyEuc.toFavOps (fun L => (polyVal v L).map (Ideal.Quotient.mk (Ideal.span {v p}))))
    (he : fact.denote (fun L => (polyVal v L).map (Ideal.Quotient.mk (Ideal.span {v p})))
      = (polyVal v hh).map (Ideal.Quotient.mk (Ideal.span {v p})))
    (hm : ∀ f ∈ fact.factors, (polyVal v f.1).Monic) :
    ((∃ f ∈ fact.factors, f.2 ≠ 1) → S.intoHensel factor p fact hh = some none) ∧
    ((∀ f ∈ fact.factors, f.2 = 1) → ∃ t, S.intoHensel factor p fact hh = some (some t) ∧ t.Valid v true ∧ t.h = hh ∧
      t.i = p ∧ t.n = 1 ∧ (2 ≤ fact.factors.length ∨ (polyVal v hh).Monic →
        List.Forall₂ (fun x y => CongMod (v p) (polyVal v x) (polyVal v y)) t.factors (fact.factors.map (·.1)))) := by
  obtain ⟨h1, h2⟩ := h.intoHensel factor p hp hf hr hh hlc hd fact hv he hm
  refine ⟨h1, fun hk => ?_⟩
  obtain ⟨t, t1, t2, t3, t4, t5, t6, -⟩ := h2 hk
  exact ⟨t, t1, t5, t4, t2, t3, t6⟩

end

/-- a factorization of the number five -/
def fiveFactor : Int → Option (Option (Factored Int)) := fun _ => some (some ⟨1, [(5, 1)]⟩)

theorem five_irreducible : Irreducible (id (5 : Int)) := Int.prime_iff_natAbs_prime.2 (by norm_num) |>.irreducible

/-- C93 is violated when there is one factor: `factors()` returns `h` itself, which is not monic, and its product with the leading
coefficient is not `h`. Here `new(5, 1, 2x + 2, [x + 1])`. -/
theorem C93_single_wrong : ∃ t, intOps.henselNew false fiveFactor 5 1 [2, 2] [[1, 1]] = some t ∧ t.factors = [[2, 2]] ∧
    ¬ CongMod 5 (polyVal id [2, 2]) (C (polyVal (id : Int → Int) [2, 2]).leadingCoeff * (t.factors.map (polyVal id)).prod) := by
  have hv : polyVal (id : Int → Int) [2, 2] = C 2 * (X + C 1) := by
    simp [polyVal_cons]; ring
  have hv1 : polyVal (id : Int → Int) [1, 1] = X + C 1 := by
    simp [polyVal_cons]; ring
  have hlc : (polyVal (id : Int → Int) [2, 2]).leadingCoeff = 2 := by
    rw [hv, leadingCoeff_mul, leadingCoeff_C, leadingCoeff_X_add_C]; rfl
  obtain ⟨t, t1, -, -, -, -, -, -, t8⟩ := C92_new intOps_models false fiveFactor 5 five_irreducible rfl (remOne_int 5 (by norm_num)) 1 one_pos
    (fun e => by cases e) [[1, 1]] (by simp) (by
      simp only [List.mem_singleton, forall_eq]
      rw [hv1]
      exact ⟨monic_X_add_C 1, by rw [natDegree_X_add_C]; exact one_pos⟩) (by simp) [2, 2] (by rw [hlc]; norm_num)
    (by rw [hlc]; simp only [List.map_cons, List.map_nil, List.prod_cons, List.prod_nil, mul_one]; rw [hv, hv1]; exact .refl _ _)
  have hfac := t8 rfl
  refine ⟨t, t1, hfac, fun hc => ?_⟩
  rw [hfac, hlc] at hc
  have := hc 1
  simp only [List.map_cons, List.map_nil, List.prod_cons, List.prod_nil, mul_one] at this
  have c1 : (1 : ℤ[X]).coeff 1 = 0 := by rw [coeff_one]; rfl
  rw [hv] at this
  simp [c1] at this

/-- C92, C93, C94 apply: `x² + 1 ≡ (x + 2)(x + 3)` modulo 5, lifted to the modulus `5^8` by linear and by quadratic lifts. -/
example : ∃ t, intOps.henselNew true fiveFactor 5 1 [1, 0, 1] [[2, 1], [3, 1]] = some t ∧
    (∃ t', intOps.henselLinearLifts 7 t.dontLift = some t' ∧ intOps.henselModulus t' = 5 ^ 8 ∧ t'.factors.length = 2 ∧
      CongMod (5 ^ 8) (polyVal id [1, 0, 1]) (C (polyVal (id : Int → Int) [1, 0, 1]).leadingCoeff * (t'.factors.map (polyVal id)).prod)) ∧
    (∃ t', intOps.henselQuadraticLifts 3 t = some t' ∧ intOps.henselModulus t' = 5 ^ 8) := by
  have hv : polyVal (id : Int → Int) [1, 0, 1] = X ^ 2 + C 1 := by
    simp [polyVal_cons]; ring
  have hv2 : polyVal (id : Int → Int) [2, 1] = X + C 2 := by
    simp [polyVal_cons]; ring
  have hv3 : polyVal (id : Int → Int) [3, 1] = X + C 3 := by
    simp [polyVal_cons]; ring
  have hmon : (polyVal (id : Int → Int) [1, 0, 1]).Monic := by rw [hv]; exact monic_X_pow_add_C 1 (by norm_num)
  obtain ⟨t, t1, t2, t3, t4, t5, t6, t7, -⟩ := C92_new intOps_models true fiveFactor 5 five_irreducible rfl (remOne_int 5 (by norm_num)) 1 one_pos
    (fun _ => rfl) [[2, 1], [3, 1]] (by simp) (by
      simp only [List.mem_cons, List.not_mem_nil, or_false, forall_eq_or_imp, forall_eq]
      rw [hv2, hv3]
      exact ⟨⟨monic_X_add_C 2, by rw [natDegree_X_add_C]; exact one_pos⟩, ⟨monic_X_add_C 3, by rw [natDegree_X_add_C]; exact one_pos⟩⟩) (by
      simp only [List.pairwise_cons, List.mem_singleton, forall_eq, List.not_mem_nil, false_implies, implies_true, List.Pairwise.nil, and_true]
      rw [hv2, hv3]
      refine ⟨-1, 1, ?_⟩
      have : (-1 : ℤ[X]) * (X + C 2) + 1 * (X + C 3) = 1 := by
        have e3 : (C 3 : ℤ[X]) = C 2 + 1 := by rw [← C_1, ← C_add]; norm_num
        rw [e3]; ring
      rw [this]; exact .refl _ _) [1, 0, 1] (by rw [hmon.leadingCoeff]; norm_num)
    (by
      rw [hmon.leadingCoeff, C_1, one_mul]
      simp only [List.map_cons, List.map_nil, List.prod_cons, List.prod_nil, mul_one]
      rw [hv, hv2, hv3, congMod_iff]
      refine ⟨-X - 1, ?_⟩
      have e2 : (C 2 : ℤ[X]) = 2 := rfl
      have e3 : (C 3 : ℤ[X]) = 3 := rfl
      have e1 : (C 1 : ℤ[X]) = 1 := rfl
      have e5 : (C (id (5 : ℤ) ^ 1) : ℤ[X]) = 5 := rfl
      rw [e1, e2, e3, e5]; ring)
  have hlen : t.factors.length = 2 := by
    have := (t7 (Or.inl (by simp))).length_eq
    simpa using this
  refine ⟨t, t1, ?_, ?_⟩
  · obtain ⟨u, u1, -, u3, u4, u5, u6⟩ := C93_linear_lift_partial intOps_models 7 t.dontLift (C94_dont_lift (S := intOps) t t2).1
      (by rw [show t.dontLift.i = 5 from t4]; exact remOne_int 5 (by norm_num))
    have hi : t.dontLift.i = 5 := t4
    have hn : t.dontLift.n = 1 := t5
    have hh : t.dontLift.h = [1, 0, 1] := t3
    have hl : t.dontLift.factors.length = 2 := hlen
    rw [hi, hn] at u4 u6
    rw [hh] at u6
    refine ⟨u, u1, u4, by rw [u5.length_eq, hl], (u6 (by rw [hl])).2⟩
  · obtain ⟨u, u1, -, u3, u4, -⟩ := C94_quadratic_lift_partial intOps_models 3 t t2 (by rw [t4]; exact remOne_int 5 (by norm_num))
    rw [t4, t5] at u4
    exact ⟨u, u1, u4⟩

/-- C92: the constructor rejects factors that are not coprime: `(x + 1)²` modulo 5. -/
example : intOps.henselNew false fiveFactor 5 1 [1, 2, 1] [[1, 1], [1, 1]] = none := by
  refine C92_new_panics intOps_models false fiveFactor 5 five_irreducible 1 one_pos _ _ (Or.inr (Or.inr (Or.inr (Or.inr ?_))))
  simp only [List.pairwise_cons, List.mem_singleton, forall_eq, List.not_mem_nil, false_implies, implies_true, List.Pairwise.nil, and_true]
  rintro ⟨U, W, hc⟩
  have hv1 : polyVal (id : Int → Int) [1, 1] = X + C 1 := by
    simp [polyVal_cons]; ring
  rw [hv1, congMod_iff] at hc
  obtain ⟨E, hE⟩ := hc
  have := congrArg (eval (-1)) hE
  simp at this
  omega

end Verif.Rings
