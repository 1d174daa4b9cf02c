import Verif.Proofs.CantorZassenhaus
import Verif.Proofs.SqfreeWrong
import Verif.Proofs.FairStream
import Verif.Proofs.FiniteField

/-!
# Properties of the factorization of polynomials over finite fields
-/

namespace Verif.Rings

open Polynomial

section
variable {α K : Type} [Field K] {F : FinFieldOps α} {v : α → K} (h : F.Models v)
include h

/-! ## C83: monic and squarefree factorization -/

/-- `factorize_monic` returns `None` for the zero polynomial and otherwise the leading coefficient and a monic polynomial with the
right product. -/
theorem C83_factorize_monic (p : List α) :
    (polyVal v p = 0 ∧ F.factorizeMonic p = some none) ∨
    (polyVal v p ≠ 0 ∧ ∃ m, F.factorizeMonic p = some (some m) ∧ v m.unit = (polyVal v p).leadingCoeff ∧
      (polyVal v m.monic).Monic ∧ C (v m.unit) * polyVal v m.monic = polyVal v p) :=
  h.factorizeMonic p

/-- Over a prime field `factorize_squarefree` terminates without panicking and returns a valid squarefree factorization of its
argument. -/
theorem C83_squarefree (hk : F.charPow.2 = 1) (m : MonicFac α) (hu : v m.unit ≠ 0) (hm : (polyVal v m.monic).Monic) :
    ∃ s, F.factorizeSquarefree m = some s ∧ s.Valid v ∧ s.denote v = C (v m.unit) * polyVal v m.monic := by
  obtain ⟨s, s1, s2, s3, s4⟩ := factorizeSquarefree_spec h _ m rfl hu hm (Or.inl hk)
  obtain ⟨t1, t2⟩ := SqGood.valid hm s (by rw [s2]; exact hu) s3 s4
  exact ⟨s, s1, t1, by rw [t2, s2]⟩

/-- The same over an arbitrary finite field, for polynomials in which no irreducible factor has a multiplicity divisible by the
characteristic. What is missing: other polynomials, for which the claim fails over every field that is not a prime field
(`C83_squarefree_wrong`). -/
theorem C83_squarefree_partial (m : MonicFac α) (hu : v m.unit ≠ 0) (hm : (polyVal v m.monic).Monic)
    (hk : ∀ π : K[X], Irreducible π → ∀ k, F.charPow.1 ∣ k → 0 < k → π ^ k ∣ polyVal v m.monic → π ^ (k + 1) ∣ polyVal v m.monic) :
    ∃ s, F.factorizeSquarefree m = some s ∧ s.Valid v ∧ s.denote v = C (v m.unit) * polyVal v m.monic := by
  obtain ⟨s, s1, s2, s3, s4⟩ := factorizeSquarefree_spec h _ m rfl hu hm (Or.inr (by
    intro π hπ hd hdv
    have h1 := hk π hπ _ hdv ((mult_pos_iff hπ hm.ne_zero).2 hd) ((pow_dvd_iff_mult hπ hm.ne_zero _).2 le_rfl)
    rw [pow_dvd_iff_mult hπ hm.ne_zero] at h1
    omega))
  obtain ⟨t1, t2⟩ := SqGood.valid hm s (by rw [s2]; exact hu) s3 s4
  exact ⟨s, s1, t1, by rw [t2, s2]⟩

/-- Over every finite field that is not a prime field `factorize_squarefree` is wrong: for `x^p - b` it returns a factorization of
`x^p - b^p`, and there is an element `b` with `b^p ≠ b`. -/
theorem C83_squarefree_wrong (hk : F.charPow.2 ≠ 1) :
    (∀ (l : List α) (b : K), polyVal v l = X ^ F.charPow.1 - C b →
      ∃ s, F.factorizeSquarefree ⟨F.one, l⟩ = some s ∧ s.denote v = X ^ F.charPow.1 - C (b ^ F.charPow.1)) ∧
    ∃ (l : List α) (s : SqFac α), (polyVal v l).Monic ∧ F.factorizeSquarefree ⟨F.one, l⟩ = some s ∧ s.denote v ≠ polyVal v l := by
  refine ⟨fun l b hl => ?_, ?_⟩
  · obtain ⟨s, s1, -, s3⟩ := factorizeSquarefree_root h F.one h.toDomain.toRing.toSemi.one l b hl
    exact ⟨s, s1, s3⟩
  · obtain ⟨b, hb⟩ := exists_pow_ne h hk
    obtain ⟨l, hl⟩ := h.toDomain.toRing.toSemi.poly.surj (X ^ F.charPow.1 - C b)
    obtain ⟨s, s1, -, s3⟩ := factorizeSquarefree_root h F.one h.toDomain.toRing.toSemi.one l b hl
    refine ⟨l, s, by rw [hl]; exact monic_X_pow_sub_C b h.prime.ne_zero, s1, ?_⟩
    rw [s3, hl]
    intro e
    exact hb (C_injective (sub_right_injective e))

/-- `MonicFactored::factor` (its assertion holds) and `into_polynomial` are inverse on non-zero polynomials. -/
theorem C83_monic_round_trip (p : List α) (hp : polyVal v p ≠ 0) :
    ∃ m, F.monicFactor p = some m ∧ polyVal v (F.monicIntoPoly m) = polyVal v p := by
  obtain ⟨m, m1, -, m3, m4⟩ := h.monicParts p hp
  refine ⟨m, ?_, ?_⟩
  · unfold FinFieldOps.monicFactor
    have : F.polyIsMonic m.monic = true := (h.toDomain.toRing.toSemi.polyIsMonic m.monic one_ne_zero).2 m3
    simp only [m1, this, assertThat, if_true, Option.bind_eq_bind, Option.bind_some]
  · unfold FinFieldOps.monicIntoPoly
    rw [h.toDomain.toRing.toSemi.polyMul, polyVal_const]
    exact m4

/-- `into_monic_factored` multiplies the factors out. -/
theorem C83_into_monic (s : SqFac α) :
    C (v (F.sqIntoMonic s).unit) * polyVal v (F.sqIntoMonic s).monic = C (v s.unit) * (s.factors.map fun p => polyVal v p.1 ^ p.2).prod := by
  have hP := h.PFav.toDomain.toRing.toSemi
  unfold FinFieldOps.sqIntoMonic
  simp only
  have e : polyVal v (F.P.product (s.factors.map fun p => F.P.natPow p.1 p.2)) = _ := hP.product _
  rw [e, List.map_map]
  congr 3
  funext p
  exact hP.natPow p.1 p.2

/-- `mul` multiplies squarefree factorizations, also when they share factors. -/
theorem C83_mul (f g : SqFac α) : (F.sqMul f g).denote v = f.denote v * g.denote v := by
  have hS := h.toDomain.toRing.toSemi
  have one : ∀ (p : List α × Nat) (l : List (List α × Nat)),
      ((F.sqMulOne p l).map fun q => polyVal v q.1 ^ q.2).prod = (l.map fun q => polyVal v q.1 ^ q.2).prod * polyVal v p.1 ^ p.2 := by
    intro p l
    induction l with
    | nil => simp [FinFieldOps.sqMulOne]
    | cons s l ih =>
      rw [FinFieldOps.sqMulOne]
      split
      · next he =>
        have e : polyVal v p.1 = polyVal v s.1 := (hS.polyEqual p.1 s.1).1 he
        simp only [List.map_cons, List.prod_cons, pow_add, e]
        ring
      · simp only [List.map_cons, List.prod_cons, ih]
        ring
  have all : ∀ (ps l : List (List α × Nat)),
      ((ps.foldl (fun fs p => F.sqMulOne p fs) l).map fun q => polyVal v q.1 ^ q.2).prod =
        (l.map fun q => polyVal v q.1 ^ q.2).prod * (ps.map fun q => polyVal v q.1 ^ q.2).prod := by
    intro ps
    induction ps with
    | nil => intro l; simp
    | cons p ps ih => intro l; rw [List.foldl_cons, ih, one, List.map_cons, List.prod_cons]; ring
  unfold SqFac.denote FinFieldOps.sqMul
  simp only [all, hS.mul, map_mul]
  ring

omit h in
/-- `pow` raises the product of the factors to the power, but leaves the unit as it is. So it is right for the unit `1`, and for the
unit `u` the result is off by `u^(k-1)`. -/
theorem C83_pow_partial (s : SqFac α) (k : Nat) :
    (s.pow (k + 1)).denote v * C (v s.unit) ^ k = s.denote v ^ (k + 1) := by
  have : ((s.pow (k + 1)).factors.map fun q => polyVal v q.1 ^ q.2).prod =
      (s.factors.map fun q => polyVal v q.1 ^ q.2).prod ^ (k + 1) := by
    unfold SqFac.pow
    simp only [List.map_map]
    induction s.factors with
    | nil => simp
    | cons p l ih =>
      simp only [List.map_cons, List.prod_cons, mul_pow] at ih ⊢
      rw [ih]
      simp only [Function.comp_apply, pow_mul]
  unfold SqFac.denote
  rw [this]
  show C (v s.unit) * _ * _ = _
  rw [mul_pow, pow_succ (C (v s.unit))]
  ring

/-- Over every finite field with more than two elements `pow` does not compute the power: the square of a constant other than `1` is
that constant. -/
theorem C83_pow_wrong (u : α) (h0 : v u ≠ 0) (h1 : v u ≠ 1) :
    ((⟨u, []⟩ : SqFac α).pow 2).denote v ≠ (⟨u, []⟩ : SqFac α).denote v ^ 2 := by
  intro e
  have e' : C (v u) = (C (v u) : K[X]) ^ 2 := by simpa [SqFac.denote, SqFac.pow] using e
  rw [← C_pow] at e'
  have := C_injective e'
  apply h1
  field_simp at this
  exact this.symm

/-! ## C84: Berlekamp's algorithm -/

/-- `find_factor_by_berlekamps_algorithm` decides irreducibility of a squarefree polynomial, and returns two proper factors when it is
reducible. -/
theorem C84_find_factor (f : List α) (hf : polyVal v f ≠ 0) (hs : Squarefree (polyVal v f)) (hu : ¬ IsUnit (polyVal v f)) :
    (Irreducible (polyVal v f) ∧ F.findFactorBerlekamp f = some .irreducible) ∨
    (¬ Irreducible (polyVal v f) ∧ ∃ a b, F.findFactorBerlekamp f = some (.composite a b) ∧
      polyVal v f = polyVal v a * polyVal v b ∧ ¬ IsUnit (polyVal v a) ∧ ¬ IsUnit (polyVal v b)) := by
  obtain ⟨r, r1, r2⟩ := h.findFactorBerlekamp f hf hs hu
  cases r with
  | irreducible => exact Or.inl ⟨r2, r1⟩
  | composite a b =>
    refine Or.inr ⟨fun hi => ?_, a, b, r1, r2⟩
    rcases hi.isUnit_or_isUnit r2.1 with e | e
    · exact r2.2.1 e
    · exact r2.2.2 e

/-- `factorize_berlekamps` turns a valid squarefree factorization into the factorization into irreducible polynomials. -/
theorem C84_factorize (s : SqFac α) (hs : s.Valid v) :
    ∃ f, F.factorizeBerlekamps s = some f ∧ f.Valid F.P.toFavOps (polyVal v) ∧ f.denote (polyVal v) = s.denote v :=
  h.factorizeBerlekamps s hs.unit fun q hq => ⟨hs.monic q hq, hs.squarefree q hq, hs.pos q hq⟩

/-- Over a prime field, the squarefree step followed by Berlekamp's algorithm factors every monic polynomial times a unit. -/
theorem C84_prime_field (hk : F.charPow.2 = 1) (m : MonicFac α) (hu : v m.unit ≠ 0) (hm : (polyVal v m.monic).Monic) :
    ∃ f, F.berlekampSteps m = some f ∧ f.Valid F.P.toFavOps (polyVal v) ∧
      f.denote (polyVal v) = C (v m.unit) * polyVal v m.monic := by
  obtain ⟨s, s1, s2, s3⟩ := C83_squarefree h hk m hu hm
  obtain ⟨f, f1, f2, f3⟩ := C84_factorize h s s2
  refine ⟨f, ?_, f2, by rw [f3, s3]⟩
  unfold FinFieldOps.berlekampSteps
  simp only [s1, f1, Option.bind_eq_bind, Option.bind_some]

/-! ## C85: distinct degree factorization -/

/-- `factorize_distinct_degree` terminates, fails none of its debug assertions, and returns a valid distinct degree factorization of
the same polynomial, over every finite field. -/
theorem C85_distinct_degree (s : SqFac α) (hs : s.Valid v) :
    ∃ d, F.factorizeDistinctDegree s = some d ∧ d.Valid v ∧ d.denote v = s.denote v :=
  h.factorizeDistinctDegree s hs

omit h in
/-- `into_squarefree_factored` forgets the degrees. -/
theorem C85_into_squarefree (d : DdFac α) : d.intoSquarefree.denote v = d.denote v := by
  unfold DdFac.intoSquarefree SqFac.denote DdFac.denote
  simp only [List.map_map]
  rfl

/-! ## C86: the Cantor–Zassenhaus algorithm and `factor` -/

/-- Whatever the random elements are: if `factorize_cantor_zassenhaus` returns, the result is the factorization into irreducible
polynomials. -/
theorem C86_sound (rand : Nat → α) (d : DdFac α) (hd : d.Valid v) (f : Factored (List α)) (e : F.factorizeCz rand d = some f) :
    f.Valid F.P.toFavOps (polyVal v) ∧ f.denote (polyVal v) = d.denote v :=
  (h.factorizeCz rand d hd).1 f e

/-- It returns for every fair stream of random elements. -/
theorem C86_terminates (rand : Nat → α) (hr : FairStream v rand) (d : DdFac α) (hd : d.Valid v) : ∃ f, F.factorizeCz rand d = some f :=
  (h.factorizeCz rand d hd).2 hr

/-- Fair streams exist. -/
theorem C86_fair_exists : ∃ rand : Nat → α, FairStream v rand := by
  haveI := h.finite
  haveI : Nonempty α := ⟨F.zero⟩
  exact exists_fairStream v h.toDomain.toRing.toSemi.surj

/-- The steps of `factor` after the first, for a polynomial whose squarefree factorization is right. -/
theorem factorSteps_spec (rand : Nat → α) (m : MonicFac α) (s : SqFac α) (s1 : F.factorizeSquarefree m = some s) (s2 : s.Valid v) :
    (∀ f, F.factorSteps rand m = some f → f.Valid F.P.toFavOps (polyVal v) ∧ f.denote (polyVal v) = s.denote v) ∧
    (FairStream v rand → ∃ f, F.factorSteps rand m = some f) := by
  obtain ⟨d, d1, d2, d3⟩ := C85_distinct_degree h s s2
  have hunf : F.factorSteps rand m = F.factorizeCz rand d := by
    unfold FinFieldOps.factorSteps
    simp only [s1, d1, Option.bind_eq_bind, Option.bind_some]
  rw [hunf]
  refine ⟨fun f e => ?_, fun hr => C86_terminates h rand hr d d2⟩
  obtain ⟨f1, f2⟩ := C86_sound h rand d d2 f e
  exact ⟨f1, by rw [f2, d3]⟩

/-- `factor` of polynomials over a prime field: `None` exactly for the zero polynomial, otherwise the factorization into irreducible
monic polynomials, for every stream on which it returns, and it returns on every fair stream. -/
theorem C86_factor_prime_field (hk : F.charPow.2 = 1) (rand : Nat → α) (p : List α) :
    (polyVal v p = 0 → F.polyFactor rand p = some none) ∧
    (polyVal v p ≠ 0 → ∀ r, F.polyFactor rand p = some r → ∃ f, r = some f ∧ f.Valid F.P.toFavOps (polyVal v) ∧
      f.denote (polyVal v) = polyVal v p) ∧
    (FairStream v rand → ∃ r, F.polyFactor rand p = some r) := by
  rcases C83_factorize_monic h p with ⟨h0, e0⟩ | ⟨h0, m, m1, m2, m3, m4⟩
  · have hunf : F.polyFactor rand p = some none := by unfold FinFieldOps.polyFactor; rw [e0]; rfl
    exact ⟨fun _ => hunf, fun hp => absurd h0 hp, fun _ => ⟨_, hunf⟩⟩
  · have hunf : F.polyFactor rand p = (F.factorSteps rand m).map some := by unfold FinFieldOps.polyFactor; rw [m1]; rfl
    obtain ⟨s, s1, s2, s3⟩ := C83_squarefree h hk m (by rw [m2]; exact leadingCoeff_ne_zero.2 h0) m3
    obtain ⟨f1, f2⟩ := factorSteps_spec h rand m s s1 s2
    rw [hunf]
    refine ⟨fun hp => absurd hp h0, fun _ r hr => ?_, fun hr => ?_⟩
    · cases hf : F.factorSteps rand m with
      | none => rw [hf] at hr; cases hr
      | some f =>
        rw [hf] at hr
        cases hr
        obtain ⟨g1, g2⟩ := f1 f hf
        exact ⟨f, rfl, g1, by rw [g2, s3, m4]⟩
    · obtain ⟨f, hf⟩ := f2 hr
      exact ⟨some f, by rw [hf]; rfl⟩

/-- The same over any finite field for polynomials in which no irreducible factor has a multiplicity divisible by the characteristic.
What is missing: other polynomials, for which `factor` is wrong over every field that is not a prime field (`C86_factor_wrong`). -/
theorem C86_factor_partial (rand : Nat → α) (p : List α) (hp : polyVal v p ≠ 0)
    (hk : ∀ π : K[X], Irreducible π → ∀ k, F.charPow.1 ∣ k → 0 < k → π ^ k ∣ polyVal v p → π ^ (k + 1) ∣ polyVal v p) :
    (∀ r, F.polyFactor rand p = some r → ∃ f, r = some f ∧ f.Valid F.P.toFavOps (polyVal v) ∧
      f.denote (polyVal v) = polyVal v p) ∧
    (FairStream v rand → ∃ r, F.polyFactor rand p = some r) := by
  rcases C83_factorize_monic h p with ⟨h0, -⟩ | ⟨h0, m, m1, m2, m3, m4⟩
  · exact absurd h0 hp
  · have hunf : F.polyFactor rand p = (F.factorSteps rand m).map some := by unfold FinFieldOps.polyFactor; rw [m1]; rfl
    have hu : v m.unit ≠ 0 := by rw [m2]; exact leadingCoeff_ne_zero.2 h0
    have hassoc : ∀ q : K[X], q ∣ polyVal v p ↔ q ∣ polyVal v m.monic := fun q => by
      rw [← m4]
      exact (isUnit_C.2 (IsUnit.mk0 _ hu)).dvd_mul_left
    obtain ⟨s, s1, s2, s3⟩ := C83_squarefree_partial h m hu m3 (by
      intro π hπ k h1 h2 h3
      rw [← hassoc] at h3 ⊢
      exact hk π hπ k h1 h2 h3)
    obtain ⟨f1, f2⟩ := factorSteps_spec h rand m s s1 s2
    rw [hunf]
    refine ⟨fun r hr => ?_, fun hr => ?_⟩
    · cases hf : F.factorSteps rand m with
      | none => rw [hf] at hr; cases hr
      | some f =>
        rw [hf] at hr
        cases hr
        obtain ⟨g1, g2⟩ := f1 f hf
        exact ⟨f, rfl, g1, by rw [g2, s3, m4]⟩
    · obtain ⟨f, hf⟩ := f2 hr
      exact ⟨some f, by rw [hf]; rfl⟩

/-- Over every finite field that is not a prime field there is a monic polynomial for which `factor` returns something, but never a
factorization of that polynomial. -/
theorem C86_factor_wrong (hk : F.charPow.2 ≠ 1) : ∃ p : List α, (polyVal v p).Monic ∧ ∀ rand : Nat → α,
    (∀ r, F.polyFactor rand p = some r → ∃ f, r = some f ∧ f.denote (polyVal v) ≠ polyVal v p) ∧
    (FairStream v rand → ∃ r, F.polyFactor rand p = some r) := by
  obtain ⟨b, hb⟩ := exists_pow_ne h hk
  obtain ⟨p, hp⟩ := h.toDomain.toRing.toSemi.poly.surj (X ^ F.charPow.1 - C b)
  have hmon : (polyVal v p).Monic := by rw [hp]; exact monic_X_pow_sub_C b h.prime.ne_zero
  refine ⟨p, hmon, fun rand => ?_⟩
  rcases C83_factorize_monic h p with ⟨h0, -⟩ | ⟨h0, m, m1, m2, m3, m4⟩
  · exact absurd h0 hmon.ne_zero
  · have hunf : F.polyFactor rand p = (F.factorSteps rand m).map some := by unfold FinFieldOps.polyFactor; rw [m1]; rfl
    rw [hmon.leadingCoeff] at m2
    rw [m2, map_one, one_mul, hp] at m4
    obtain ⟨s, s1, s2, s3⟩ := factorizeSquarefree_root h m.unit m2 m.monic b m4
    obtain ⟨f1, f2⟩ := factorSteps_spec h rand m s s1 s2
    rw [hunf]
    refine ⟨fun r hr => ?_, fun hr => ?_⟩
    · cases hf : F.factorSteps rand m with
      | none => rw [hf] at hr; cases hr
      | some f =>
        rw [hf] at hr
        cases hr
        refine ⟨f, rfl, ?_⟩
        rw [(f1 f hf).2, s3, hp]
        intro e
        exact hb (C_injective (sub_right_injective e))
    · obtain ⟨f, hf⟩ := f2 hr
      exact ⟨some f, by rw [hf]; rfl⟩

end

/-- The hypotheses are met: `x^3 + 2x` over the field with three elements is factored on some stream. -/
example : ∃ (rand : Nat → Fin 3) (f : Factored (List (Fin 3))),
    (moduloOps 3 (by decide)).polyFactor rand [0, 2, 0, 1] = some (some f) ∧
    f.denote (polyVal fun x : Fin 3 => (x.val : ZMod 3)) = polyVal (fun x : Fin 3 => (x.val : ZMod 3)) [0, 2, 0, 1] := by
  haveI hp : Fact (Nat.Prime 3) := ⟨by norm_num⟩
  have h := moduloOps_models hp
  obtain ⟨rand, hr⟩ := C86_fair_exists h
  obtain ⟨-, h2, h3⟩ := C86_factor_prime_field h rfl rand [0, 2, 0, 1]
  obtain ⟨r, hr⟩ := h3 hr
  have hne : polyVal (moduloVal 3) [0, 2, 0, 1] ≠ 0 := by
    intro e
    have := congrArg (fun q => coeff q 3) e
    simp [polyVal, moduloVal, coeff_X, coeff_C] at this
  obtain ⟨f, rfl, -, f3⟩ := h2 hne r hr
  exact ⟨rand, f, hr, f3⟩

/-- `C86_factor_wrong` and `C83_squarefree_wrong` apply to `QuaternaryField`. -/
example : quatOps.Models (id : Quat → Quat) ∧ quatOps.charPow.2 ≠ 1 := ⟨quatOps_models_id, by decide⟩

/-! ## C87: quotients of polynomial rings over a field -/

section
variable {α K : Type} [Field K] {S : DomainOps α} {v : α → K} (h : S.Models v)
include h

/-- `to_col_vector` gives the coefficients of the reduced representative, `from_col_vector` gives an element with those coefficients, so
`from_col_vector (to_col_vector a)` is `a` in the quotient. -/
theorem C87_vectors (f : List α) (hf : polyVal v f ≠ 0) (a : List α) :
    ∃ m p, S.pqToCol f a = some m ∧
      m.Denotes v (Matrix.of fun (i : Fin (polyVal v f).natDegree) (_ : Fin 1) => (polyVal v a % polyVal v f).coeff i) ∧
      S.pqFromCol f m = some p ∧ polyVal v p = polyVal v a % polyVal v f := by
  obtain ⟨m, m1, m2⟩ := h.pqToCol f a hf rfl
  obtain ⟨p, p1, p2⟩ := h.pqFromCol f hf rfl m2
  exact ⟨m, p, m1, m2, p1, p2.trans (vecPoly_of_degree _ (degree_mod_lt hf _))⟩

/-- `col_multiplication_matrix a` times the vector of `b` is the vector of `a * b`, and `row_multiplication_matrix` is its transpose. -/
theorem C87_multiplication_matrix (f : List α) (hf : polyVal v f ≠ 0) (hn : 0 < (polyVal v f).natDegree) (a b : List α) :
    ∃ m mt w x, S.pqColMulMatrix f a = some m ∧ S.pqRowMulMatrix f a = some mt ∧ mt = m.transposed ∧ S.pqToCol f b = some w ∧
      S.matMulUnwrap m w = some x ∧
      x.Denotes v (Matrix.of fun (i : Fin (polyVal v f).natDegree) (_ : Fin 1) =>
        ((polyVal v a * polyVal v b) % polyVal v f).coeff i) := by
  obtain ⟨m, m1, m2⟩ := h.pqColMulMatrix f a hf rfl hn
  obtain ⟨w, w1, w2⟩ := h.pqToCol f b hf rfl
  obtain ⟨x, x1, x2⟩ := h.toRing.toSemi.matMulUnwrap m2 w2
  refine ⟨m, m.transposed, w, x, m1, by unfold DomainOps.pqRowMulMatrix; rw [m1]; rfl, rfl, w1, x1, ?_⟩
  convert x2 using 1
  ext i j
  rw [Matrix.mul_apply]
  exact (mulMatrix_vec hf rfl (polyVal v a) (polyVal v b) i).symm

/-- `trace` and `norm` are the trace and the norm of the algebra `K[x]/(f)`. -/
theorem C87_trace_norm (f : List α) (hf : polyVal v f ≠ 0) (hn : 0 < (polyVal v f).natDegree) (a : List α) :
    (∃ x, S.pqTrace f a = some x ∧ v x = Algebra.trace K (AdjoinRoot (polyVal v f)) (AdjoinRoot.mk (polyVal v f) (polyVal v a))) ∧
    ∃ x, S.pqNorm f a = some x ∧ v x = Algebra.norm K (AdjoinRoot.mk (polyVal v f) (polyVal v a)) :=
  ⟨h.pqTrace f a hf hn, h.pqNorm f a hf hn⟩

/-- With a constant modulus `trace` and `norm` panic. -/
theorem C87_constant_modulus (f : List α) (hf : polyVal v f ≠ 0) (hn : (polyVal v f).natDegree = 0) (a : List α) :
    S.pqTrace f a = none ∧ S.pqNorm f a = none := by
  have e : S.pqColMulMatrix f a = none := by
    unfold DomainOps.pqColMulMatrix
    simp only [h.pqDegree f hf, hn, Option.bind_eq_bind, Option.bind_some]
    rfl
  exact ⟨by unfold DomainOps.pqTrace; rw [e]; rfl, by unfold DomainOps.pqNorm; rw [e]; rfl⟩

end

end Verif.Rings
