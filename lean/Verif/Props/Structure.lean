import Verif.Proofs.Numbers
import Mathlib.Algebra.CharZero.Defs
import Mathlib.Data.Int.GCD
import Mathlib.Data.Nat.Prime.Int
import Mathlib.Tactic.NormNum.Prime
import Mathlib.Algebra.Order.Round

/-! # C38–C42, C48, C49: generic ring code, integers, rationals, quotient rings -/

namespace Verif.Rings

/-! ## C38 -/

/-- C38: in every structure presenting a semiring, `nat_pow(a, n)` denotes `a ^ n`. -/
theorem C38_nat_pow {α R : Type} [Semiring R] {S : SemiRingOps α} {v : α → R} (h : S.Models v) (a : α) (n : Nat) :
    v (S.natPow a n) = v a ^ n := h.natPow a n

/-- C38: `from_nat` is the canonical map from the natural numbers. -/
theorem C38_from_nat {α R : Type} [Semiring R] {S : SemiRingOps α} {v : α → R} (h : S.Models v) (n : Nat) :
    v (S.fromNat n) = (n : R) := h.fromNat n

/-- C38: `sum` and `product` are the sum and the product, in order. -/
theorem C38_sum_product {α R : Type} [Semiring R] {S : SemiRingOps α} {v : α → R} (h : S.Models v) (l : List α) :
    v (S.sum l) = (l.map v).sum ∧ v (S.product l) = (l.map v).prod := ⟨h.sum l, h.product l⟩

/-- C38: `from_int` is the canonical map from the integers. -/
theorem C38_from_int {α R : Type} [Ring R] {S : RingOps α} {v : α → R} (h : S.Models v) (n : Int) :
    v (S.fromInt n) = (n : R) := h.fromInt n

/-- C38: `from_rat` returns the quotient of the numerator by the denominator if it exists and `None` if it does not; it
panics exactly when the denominator is zero in the ring. -/
theorem C38_from_rat {α R : Type} [CommRing R] {S : DomainOps α} {v : α → R} (h : S.Models v) (x : ℚ) :
    (S.fromRat x = none ↔ ((x.den : Int) : R) = 0) ∧
    (S.fromRat x = some none ↔ ((x.den : Int) : R) ≠ 0 ∧ ¬ ∃ q : R, q * ((x.den : Int) : R) = (x.num : R)) ∧
    (∀ q, S.fromRat x = some (some q) → v q * ((x.den : Int) : R) = (x.num : R)) := by
  have e1 := h.toRing.fromInt x.num
  have e2 := h.toRing.fromInt x.den
  rcases h.div_cases (S.fromInt x.num) (S.fromInt x.den) with ⟨h1, h2⟩ | ⟨h1, q, h2, h3⟩ | ⟨h1, h2, h3⟩
  · rw [e2] at h1
    refine ⟨by simpa [DomainOps.fromRat, h2, okOrNone] using h1, ?_, by simp [DomainOps.fromRat, h2, okOrNone]⟩
    simp only [DomainOps.fromRat, h2, okOrNone, Option.bind_some, reduceCtorEq, false_iff, not_and]
    exact fun hh => absurd h1 hh
  · rw [e2] at h1
    rw [e1, e2] at h3
    refine ⟨by simpa [DomainOps.fromRat, h2, okOrNone] using h1, ?_, ?_⟩
    · simp only [DomainOps.fromRat, h2, okOrNone, Option.bind_some, Option.some.injEq, reduceCtorEq, false_iff, not_and,
        not_not]
      exact fun _ => ⟨v q, h3.symm⟩
    · intro q' hq
      simp only [DomainOps.fromRat, h2, okOrNone, Option.bind_some, Option.some.injEq] at hq
      rw [← hq, ← h3]
  · rw [e1, e2] at h2
    rw [e2] at h1
    refine ⟨by simpa [DomainOps.fromRat, h3, okOrNone] using h1, ?_, by simp [DomainOps.fromRat, h3, okOrNone]⟩
    simp only [DomainOps.fromRat, h3, okOrNone, Option.bind_some, true_iff]
    refine ⟨h1, ?_⟩
    rintro ⟨q, hq⟩
    exact h2 ⟨q, by rw [← hq, mul_comm]⟩

/-- C38: for non-zero `a`, `int_pow(a, n)` is the `n`-th power: for `n ≥ 0` it is `a ^ n`; for negative `n` it is the inverse of
`a ^ |n|` when `a` is a unit and `None` when it is not. -/
theorem C38_int_pow_partial {α R : Type} [CommRing R] {S : DomainOps α} {v : α → R} (h : S.Models v) (a : α)
    (ha : v a ≠ 0) (n : Int) :
    (0 ≤ n → ∃ r, S.intPow a n = some (some r) ∧ v r = v a ^ n.natAbs) ∧
    (n < 0 → IsUnit (v a) → ∃ r, S.intPow a n = some (some r) ∧ v r * v a ^ n.natAbs = 1) ∧
    (n < 0 → ¬ IsUnit (v a) → S.intPow a n = some none) := by
  haveI := h.domain
  have hz := (h.toSemi.isZero_false a).2 ha
  refine ⟨?_, ?_, ?_⟩
  · intro hn
    by_cases h0 : n = 0
    · subst h0; exact ⟨S.one, by simp [DomainOps.intPow], by simpa using h.one⟩
    · exact ⟨S.natPow a n.natAbs, by simp [DomainOps.intPow, h0, hz, show n > 0 by omega], h.toSemi.natPow _ _⟩
  · intro hn hu
    obtain ⟨i, i1, i2⟩ := h.div_ok S.one a ha hu.dvd
    refine ⟨S.natPow i n.natAbs, ?_, ?_⟩
    · simp [DomainOps.intPow, show n ≠ 0 by omega, hz, show ¬ n > 0 by omega, DomainOps.intPowNeg, DomainOps.inv, i1, okOrNone]
    · rw [h.toSemi.natPow, ← mul_pow, ← i2, h.one, one_pow]
  · intro hn hu
    have := h.div_not S.one a ha (by rw [h.one]; exact fun hd => hu (isUnit_of_dvd_one hd))
    simp [DomainOps.intPow, show n ≠ 0 by omega, hz, show ¬ n > 0 by omega, DomainOps.intPowNeg, DomainOps.inv, this, okOrNone]

/-- C38: for zero, non-negative powers are right, but every negative power of zero is reported to be zero, although zero
has no inverse (unlike `inv`, which reports a division by zero). -/
theorem C38_int_pow_zero_wrong {α R : Type} [CommRing R] {S : DomainOps α} {v : α → R} (h : S.Models v) (a : α)
    (ha : v a = 0) (n : Int) :
    (0 ≤ n → ∃ r, S.intPow a n = some (some r) ∧ v r = v a ^ n.natAbs) ∧
    (n < 0 → S.intPow a n = some (some S.zero) ∧ ¬ ∃ r : R, r * v a ^ n.natAbs = 1) := by
  haveI := h.domain
  have hz := (h.toSemi.isZero a).2 ha
  constructor
  · intro hn
    by_cases h0 : n = 0
    · subst h0; exact ⟨S.one, by simp [DomainOps.intPow], by simpa using h.one⟩
    · exact ⟨S.zero, by simp [DomainOps.intPow, h0, hz], by rw [h.zero, ha, zero_pow (by omega)]⟩
  · intro hn
    refine ⟨by simp [DomainOps.intPow, show n ≠ 0 by omega, hz], ?_⟩
    rintro ⟨r, hr⟩
    rw [ha, zero_pow (by omega), mul_zero] at hr
    exact zero_ne_one hr

example : natOps.natPow 3 13 = 3 ^ 13 := C38_nat_pow natOps_models 3 13
example : ∃ r, intOps.intPow (-1) (-3) = some (some r) ∧ r * (-1) ^ 3 = 1 :=
  (C38_int_pow_partial intOps_models.toDomain (-1) (by decide) (-3)).2.1 (by decide) (Int.isUnit_iff.2 (Or.inr rfl))
example : ratOps.fromRat (3 / 4) ≠ none := by
  rw [Ne, (C38_from_rat ratOps_models _).1]
  have : (3 / 4 : ℚ).den ≠ 0 := (3 / 4 : ℚ).den_nz
  exact_mod_cast this

/-! ## C39, C40 -/

/-- C39: in every structure presenting a Euclidean domain, `euclidean_gcd(x, y)` returns (the loop terminates and nothing
panics), and the result is a greatest common divisor and a favourite associate. -/
theorem C39_euclidean_gcd {α R : Type} [CommRing R] {S : EucOps α} {v : α → R} (h : S.Models v) (x y : α) :
    ∃ g, S.euclideanGcd x y = some g ∧ v g ∣ v x ∧ v g ∣ v y ∧ (∀ d, d ∣ v x → d ∣ v y → d ∣ v g) ∧
      S.IsFav v (v g) := by
  obtain ⟨g, h1, h2, h3⟩ := h.euclideanGcd x y
  obtain ⟨a, b, c⟩ := isGcdOf_pair.1 h2
  exact ⟨g, h1, a, b, c, h3⟩

/-- C39: `euclidean_xgcd(x, y)` returns, none of its debug assertions fails, and the result `(g, a, b)` satisfies
`g = a*x + b*y` with `g` the same element as `euclidean_gcd(x, y)`. -/
theorem C39_euclidean_xgcd {α R : Type} [CommRing R] {S : EucOps α} {v : α → R} (h : S.Models v) (x y : α) :
    ∃ g a b g', S.euclideanXgcd x y = some (g, a, b) ∧ v g = v a * v x + v b * v y ∧
      S.euclideanGcd x y = some g' ∧ v g = v g' := by
  haveI := h.domain
  obtain ⟨g, a, b, h1, h2, h3, h4⟩ := h.euclideanXgcd x y
  obtain ⟨g', k1, k2, k3⟩ := h.euclideanGcd x y
  exact ⟨g, a, b, g', h1, h2, k1, h.toFav.isFav_eq h4 k3 (h3.associated k2)⟩

/-- C39: `gcd_list` returns a greatest common divisor of the list (zero for the empty list). -/
theorem C39_gcd_list {α R : Type} [CommRing R] {S : GcdOps α} {v : α → R} (h : S.Models v) (l : List α) :
    ∃ g, S.gcdList l = some g ∧ IsGcdOf {r | ∃ a ∈ l, v a = r} (v g) ∧ S.IsFav v (v g) := by
  obtain ⟨g, h1, h2, h3⟩ := h.gcdList l
  exact ⟨g, h1, by simpa only [List.mem_map] using h2, h3⟩

/-- C39: `lcm(x, y)` never panics and is a least common multiple. -/
theorem C39_lcm {α R : Type} [CommRing R] {S : GcdOps α} {v : α → R} (h : S.Models v) (x y : α) :
    ∃ m, S.lcm x y = some m ∧ v x ∣ v m ∧ v y ∣ v m ∧ ∀ d, v x ∣ d → v y ∣ d → v m ∣ d := by
  obtain ⟨m, h1, h2, h3⟩ := h.lcm x y
  exact ⟨m, h1, h2 _ (by simp), h2 _ (by simp), fun d a b => h3 d (by simp [a, b])⟩

/-- C39: `lcm_list` returns a least common multiple of the list (one for the empty list). -/
theorem C39_lcm_list {α R : Type} [CommRing R] {S : GcdOps α} {v : α → R} (h : S.Models v) (l : List α) :
    ∃ m, S.lcmList l = some m ∧ IsLcmOf {r | ∃ a ∈ l, v a = r} (v m) := by
  obtain ⟨m, h1, h2, h3⟩ := h.lcmList_fold l S.one
  refine ⟨m, h1, ⟨fun x hx => h2 x (Or.inr (by simpa only [List.mem_map] using hx)), fun d hd => h3 d ?_⟩⟩
  intro x hx
  rcases hx with rfl | hx
  · rw [h.one]; exact one_dvd d
  · exact hd x (by simpa only [List.mem_map] using hx)

/-- C39: over the integers the gcd is the non-negative one. -/
theorem C39_int_gcd (x y : Int) : intOps.euclideanGcd x y = some (Int.gcd x y : Int) := by
  obtain ⟨g, h1, h2, h3, h4, h5⟩ := C39_euclidean_gcd intOps_models x y
  have hg : (intFav g).2 = g := h5 g (intFav g).1 (intFav g).2 rfl rfl
  rw [(intFav_eq g).1] at hg
  rw [h1]
  congr 1
  have hnn : 0 ≤ g := by rw [← hg]; exact abs_nonneg g
  apply Int.dvd_antisymm hnn (by positivity)
  · exact Int.dvd_coe_gcd h2 h3
  · exact h4 _ (Int.gcd_dvd_left ..) (Int.gcd_dvd_right ..)

/-- C39: the lcm is not normalised: over the integers `lcm(-4, 6)` is `-12`. -/
theorem C39_lcm_not_normalised : intOps.bezout.lcm (-4) 6 = some (-12) := by
  change (intOps.euclideanGcd (-4) 6).bind _ = _
  rw [C39_int_gcd]; decide

example : intOps.euclideanGcd 12 (-18) = some 6 := C39_int_gcd 12 (-18)
example : ∃ g a b g', intOps.euclideanXgcd 240 46 = some (g, a, b) ∧ g = a * 240 + b * 46 ∧
    intOps.euclideanGcd 240 46 = some g' ∧ g = g' := C39_euclidean_xgcd intOps_models 240 46
example := C39_lcm_list intOps_models.bezout.toGcd [4, 6, -10]

/-- C40: `xgcd_list(elems)` never panics; it returns as many coefficients as elements, their linear combination is the
returned `g`, and `g` is a greatest common divisor of the elements and a favourite associate. -/
theorem C40_xgcd_list {α R : Type} [CommRing R] {S : BezoutOps α} {v : α → R} (h : S.Models v) (l : List α) :
    ∃ g cs, S.xgcdList l = some (g, cs) ∧ cs.length = l.length ∧
      v g = (List.zipWith (fun c x => v c * v x) cs l).sum ∧ IsGcdOf {r | ∃ a ∈ l, v a = r} (v g) ∧ S.IsFav v (v g) := by
  obtain ⟨g, cs, h1, h2, h3, h4, h5⟩ := h.xgcdList l
  exact ⟨g, cs, h1, h2, h3, by simpa only [List.mem_map] using h4, h5⟩

example : ∃ g cs, intOps.bezout.xgcdList [6, 10, 15] = some (g, cs) ∧ cs.length = 3 ∧
    g = (List.zipWith (fun c x => c * x) cs [6, 10, 15]).sum := by
  obtain ⟨g, cs, h1, h2, h3, -⟩ := C40_xgcd_list intOps_models.bezout [6, 10, 15]
  exact ⟨g, cs, h1, h2, h3⟩

/-! ## C41 -/

/-- C41: integer division: `DivideByZero` iff `b = 0`; `Ok(q)` iff `b ≠ 0` and `a = q*b`; otherwise `NotDivisible`. -/
theorem C41_int_div (a b : Int) :
    (intOps.div a b = some (.error .divideByZero) ↔ b = 0) ∧
    (∀ q, intOps.div a b = some (.ok q) ↔ b ≠ 0 ∧ a = q * b) ∧
    (intOps.div a b = some (.error .notDivisible) ↔ b ≠ 0 ∧ ¬ b ∣ a) := by
  change ((some (intDiv a b) : Option (Except DivErr Int)) = _ ↔ _) ∧ (∀ q, some (intDiv a b) = _ ↔ _) ∧
    (some (intDiv a b) = _ ↔ _)
  by_cases hb : b = 0
  · subst hb; simp [intDiv_zero]
  · by_cases hd : b ∣ a
    · obtain ⟨h1, h2⟩ := intDiv_ok a b hb hd
      refine ⟨by simp [h1, hb], ?_, by simp [h1, hd]⟩
      intro q
      rw [h1]
      simp only [Option.some.injEq, Except.ok.injEq]
      constructor
      · rintro rfl; exact ⟨hb, h2⟩
      · rintro ⟨-, h⟩
        exact mul_right_cancel₀ hb (h2.symm.trans h)
    · have h1 := intDiv_not a b hb hd
      refine ⟨by simp [h1, hb], ?_, by simp [h1, hb, hd]⟩
      intro q
      simp only [h1, Option.some.injEq, reduceCtorEq, false_iff, not_and]
      rintro - rfl
      exact hd ⟨q, by rw [mul_comm]⟩

/-- C41: `quorem` is division with the quotient rounded down: `None` iff `b = 0`, and otherwise `a = q*b + r` with `r` between `0`
and `b` on the side of `b`. -/
theorem C41_int_quorem (a b : Int) :
    (intOps.quorem a b = some none ↔ b = 0) ∧
    (∀ q r, intOps.quorem a b = some (some (q, r)) ↔ b ≠ 0 ∧ a = q * b + r ∧ q = ⌊(a : ℚ) / b⌋) := by
  change (some (intQuorem a b) = _ ↔ _) ∧ (∀ q r, some (intQuorem a b) = _ ↔ _)
  unfold intQuorem
  by_cases hb : b = 0
  · simp [hb]
  · refine ⟨by simp [hb], ?_⟩
    intro q r
    have hq : a.fdiv b = ⌊(a : ℚ) / b⌋ := by
      symm
      rw [Int.floor_eq_iff]
      have e := Int.mul_fdiv_add_fmod a b
      have hbq : (b : ℚ) ≠ 0 := by exact_mod_cast hb
      have e' : (a : ℚ) / b = (a.fdiv b : ℚ) + (a.fmod b : ℚ) / b := by
        field_simp
        exact_mod_cast (by rw [add_comm, add_comm] at e ⊢; linarith : a = b * a.fdiv b + a.fmod b)
      rw [e']
      rcases lt_or_gt_of_ne hb with h | h
      · have h1 := Int.fmod_nonneg_of_pos (-a) (b := -b) (by omega)
        have h2 := Int.fmod_lt_of_pos (-a) (b := -b) (by omega)
        rw [Int.neg_fmod_neg] at h1 h2
        have hbn : (b : ℚ) < 0 := by exact_mod_cast h
        have g1 : (a.fmod b : ℚ) ≤ 0 := by exact_mod_cast (by omega : a.fmod b ≤ 0)
        have g2 : (b : ℚ) < (a.fmod b : ℚ) := by exact_mod_cast (by omega : b < a.fmod b)
        constructor
        · have := div_nonneg_of_nonpos g1 hbn.le; linarith
        · have := (div_lt_one_of_neg hbn).2 g2; linarith
      · have h1 := Int.fmod_nonneg_of_pos a h
        have h2 := Int.fmod_lt_of_pos a h
        have hbp : (0 : ℚ) < b := by exact_mod_cast h
        have g1 : (0 : ℚ) ≤ (a.fmod b : ℚ) := by exact_mod_cast h1
        have g2 : (a.fmod b : ℚ) < b := by exact_mod_cast h2
        constructor
        · have := div_nonneg g1 hbp.le; linarith
        · have := (div_lt_one hbp).2 g2; linarith
    simp only [hb, if_false, Option.some.injEq, Prod.mk.injEq, ne_eq, not_false_eq_true, true_and]
    have e := Int.mul_fdiv_add_fmod a b
    constructor
    · rintro ⟨rfl, rfl⟩
      exact ⟨by rw [mul_comm]; exact e.symm, hq⟩
    · rintro ⟨h1, h2⟩
      rw [← hq] at h2
      subst h2
      refine ⟨rfl, ?_⟩
      rw [mul_comm] at h1
      linarith

/-- C41: `factor_fav_assoc(a)` is `(sign, |a|)` with the sign of zero taken to be `1`. -/
theorem C41_int_fav (a : Int) : intOps.factorFavAssoc a = some (if a < 0 then -1 else 1, |a|) := by
  change some (intFav a) = _
  congr 1
  unfold intFav
  split
  · subst_vars; rfl
  split
  · rename_i h; rw [abs_of_neg h]
  · rename_i h1 h; rw [abs_of_nonneg (not_lt.1 h)]

/-- C41: in every integral domain, `divisible(a, b)` answers whether `b` is non-zero and divides `a`, `are_associate` whether
the elements are associates, `is_unit` whether the element is a unit, `is_fav_assoc` whether it is its own favourite associate. -/
theorem C41_predicates {α R : Type} [CommRing R] {S : FavOps α} {v : α → R} (h : S.Models v) (a b : α) :
    (∃ r, S.divisible a b = some r ∧ (r = true ↔ v b ≠ 0 ∧ v b ∣ v a)) ∧
    (∃ r, S.areAssociate a b = some r ∧ (r = true ↔ Associated (v a) (v b))) ∧
    (∃ r, S.isUnit a = some r ∧ (r = true ↔ IsUnit (v a))) ∧
    (∃ r, S.isFavAssoc a = some r ∧ (r = true ↔ S.IsFav v (v a))) := by
  classical
  exact ⟨⟨_, h.toDomain.divisible a b, by simp⟩, ⟨_, h.toDomain.areAssociate a b, by simp⟩,
    ⟨_, h.toDomain.isUnit a, by simp⟩, ⟨_, h.isFavAssoc a, by simp⟩⟩

/-- C41: `all_units` of the integers lists the units, each once. -/
theorem C41_int_units : intUnits.Nodup ∧ ∀ a : Int, a ∈ intUnits ↔ IsUnit a := by
  refine ⟨by decide, fun a => ?_⟩
  rw [Int.isUnit_iff]; simp [intUnits]

/-- C41: the integers, with the operations of the library, are a Euclidean structure in the sense used by all the generic
theorems (so each of them applies to the integers). -/
theorem C41_int_structure : intOps.Models (id : Int → Int) := intOps_models

example : intOps.div 12 (-4) = some (.ok (-3)) := ((C41_int_div 12 (-4)).2.1 (-3)).2 (by decide)
example : ∃ r, intOps.areAssociate 5 (-5) = some r ∧ (r = true ↔ Associated (5 : Int) (-5)) :=
  (C41_predicates intOps_models.toFav 5 (-5)).2.1

/-! ## C42 -/

/-- C42: with a non-zero modulus the reductions performed by the quotient ring never panic. -/
theorem C42_no_panic {α R : Type} [CommRing R] {S : EucOps α} {v : α → R} (h : S.Models v) (m a : α) :
    S.rem a m = some (S.reduce m a) := by
  obtain ⟨r, h1, -⟩ := h.rem a m
  simp [EucOps.reduce, h1]

/-- C42: `QuotientStructure(R, m)` with `m ≠ 0` presents the quotient ring `R/(m)`: `equal` is congruence modulo `m` and
`zero, one, add, mul, neg` are those of the quotient. -/
theorem C42_quotient_ring {α R : Type} [CommRing R] {S : EucOps α} {v : α → R} (h : S.Models v) (m : α) (hm : v m ≠ 0) :
    (∀ a b, (S.quotientRing m).equal a b = true ↔ v m ∣ v a - v b) ∧
    (S.quotientRing m).Models (fun a => Ideal.Quotient.mk (Ideal.span {v m}) (v a)) := by
  refine ⟨fun a b => ?_, h.quotientRing m hm⟩
  rw [(h.quotientRing m hm).equal, quot_eq_iff]

/-- C42: `reduce` returns a congruent element that is zero or of smaller norm than the modulus. -/
theorem C42_reduce {α R : Type} [CommRing R] {S : EucOps α} {v : α → R} (h : S.Models v) (m a : α) (hm : v m ≠ 0) :
    v m ∣ v a - v (S.reduce m a) ∧
    (v (S.reduce m a) = 0 ∨ ∃ n k, S.norm (S.reduce m a) = some n ∧ S.norm m = some k ∧ n < k) := by
  refine ⟨h.reduce m a, ?_⟩
  obtain ⟨r, h1, -, -, h4⟩ := h.rem a m
  have : S.reduce m a = r := by simp [EucOps.reduce, h1]
  rw [this]
  by_cases h0 : v r = 0
  · exact Or.inl h0
  · exact Or.inr (h4 hm h0)

/-- C42: when `m` is irreducible the quotient is a field and `div` is its division: `DivideByZero` iff the divisor is zero modulo
`m`, and otherwise `Ok(q)` with `q*b ≡ a` modulo `m`. -/
theorem C42_quotient_field {α R : Type} [CommRing R] {S : EucOps α} {v : α → R} (h : S.Models v) (m : α)
    (hm : Irreducible (v m)) :
    IsField (R ⧸ Ideal.span {v m}) ∧
    (S.quotientField m).Models (fun a => Ideal.Quotient.mk (Ideal.span {v m}) (v a)) ∧
    (∀ a b, v m ∣ v b → (S.quotientField m).div a b = some (.error .divideByZero)) ∧
    (∀ a b, ¬ v m ∣ v b → ∃ q, (S.quotientField m).div a b = some (.ok q) ∧ v m ∣ v a - v q * v b) := by
  obtain ⟨h1, h2⟩ := h.quotientField m hm
  have hnz : ∀ b, Ideal.Quotient.mk (Ideal.span {v m}) (v b) = 0 ↔ v m ∣ v b := by
    intro b; rw [Ideal.Quotient.eq_zero_iff_mem, Ideal.mem_span_singleton]
  refine ⟨h2, h1, fun a b hb => h1.div_zero a b ((hnz b).2 hb), fun a b hb => ?_⟩
  have hb' : Ideal.Quotient.mk (Ideal.span {v m}) (v b) ≠ 0 := fun e => hb ((hnz b).1 e)
  obtain ⟨q, q1, q2⟩ := h1.div_ok a b hb' (by
    letI := h2.toField
    exact (isUnit_iff_ne_zero.2 hb').dvd)
  exact ⟨q, q1, by rw [← map_mul, quot_eq_iff] at q2; exact q2⟩

/-- C42: for any non-zero modulus, `div(a, b)` with `b` not zero modulo `m` returns `Ok(q)` with `q*b ≡ a` exactly when such a `q`
exists, and `NotDivisible` otherwise. -/
theorem C42_div_any_modulus {α R : Type} [CommRing R] {S : EucOps α} {v : α → R} (h : S.Models v) (m : α)
    (hm : v m ≠ 0) (a b : α) (hb : ¬ v m ∣ v b) :
    ((∃ x : R, v m ∣ v a - x * v b) → ∃ q, S.quotientDiv m a b = some (.ok q) ∧ v m ∣ v a - v q * v b) ∧
    ((¬ ∃ x : R, v m ∣ v a - x * v b) → S.quotientDiv m a b = some (.error .notDivisible)) := by
  obtain ⟨g, x, y, -, g2, g3, -⟩ := h.euclideanXgcd b m
  have hg := isGcdOf_pair.1 g3
  have key : (∃ x : R, v m ∣ v a - x * v b) ↔ v g ∣ v a := by
    constructor
    · rintro ⟨x, hx⟩
      have h1 := (hg.2.1).trans hx
      have h2 : v g ∣ x * v b := hg.1.mul_left x
      have := dvd_add h1 h2
      simpa using this
    · rintro ⟨d, hd⟩
      exact ⟨d * v x, ⟨d * v y, by rw [hd, g2]; ring⟩⟩
  obtain ⟨s1, s2⟩ := h.quotientDiv_spec m a b hm hb
  rw [key]
  exact ⟨fun hd => s1 _ g3 hd, fun hd => s2 _ g3 hd⟩

example : ∃ q, (intOps.quotientField 5).div 3 2 = some (.ok q) ∧ (5 : Int) ∣ 3 - q * 2 :=
  (C42_quotient_field intOps_models 5 (Nat.prime_iff_prime_int.1 (by norm_num : Nat.Prime 5)).irreducible).2.2.2 3 2 (by decide)

/-! ## C48: generated elements, absolute value, rationals -/

theorem genState_eq (n : Nat) : genState n = if n % 2 = 1 then (((n + 1) / 2 : Nat) : Int) else -((n / 2 : Nat) : Int) := by
  induction n with
  | zero => rfl
  | succ n ih =>
    rw [genState, ih, genNext]
    rcases Nat.mod_two_eq_zero_or_one n with h | h
    · rw [if_neg (by omega)]
      rw [if_neg (by omega), if_pos (by omega)]
      omega
    · rw [if_pos h]
      rw [if_pos (by omega), if_neg (by omega)]

/-- C48: in a ring of characteristic zero `generate_distinct_elements` never repeats an element, and it yields exactly the
images of the integers. -/
theorem C48_generate_distinct {α R : Type} [Ring R] [CharZero R] {S : RingOps α} {v : α → R} (h : S.Models v) :
    (∀ i j, v (S.generated i) = v (S.generated j) → i = j) ∧ ∀ z : Int, ∃ i, v (S.generated i) = (z : R) := by
  constructor
  · intro i j hij
    rw [RingOps.generated, RingOps.generated, h.fromInt, h.fromInt] at hij
    have := Int.cast_injective hij
    rw [genState_eq, genState_eq] at this
    split at this <;> split at this <;> omega
  · intro z
    by_cases hz : 0 < z
    · refine ⟨2 * z.natAbs - 1, ?_⟩
      rw [RingOps.generated, h.fromInt, genState_eq, if_pos (by omega)]
      congr 1; omega
    · refine ⟨2 * z.natAbs, ?_⟩
      rw [RingOps.generated, h.fromInt, genState_eq, if_neg (by omega)]
      congr 1; omega

/-- C48: `abs` in an ordered ring whose `ring_cmp` is the order. -/
theorem C48_abs {α R : Type} [Ring R] [LinearOrder R] [IsStrictOrderedRing R] {S : RingOps α} {v : α → R} (h : S.Models v)
    (cmp : α → α → Ordering) (hc : ∀ a b, cmp a b = compare (v a) (v b)) (a : α) : v (S.abs cmp a) = |v a| := by
  unfold RingOps.abs
  rw [hc, h.zero]
  rcases lt_trichotomy (v a) 0 with h0 | h0 | h0
  · rw [compare_lt_iff_lt.2 h0]; simp [h.neg, abs_of_neg h0]
  · rw [compare_eq_iff_eq.2 h0]; simp [h.zero, h0]
  · rw [compare_gt_iff_gt.2 h0]; simp [abs_of_pos h0]

/-- C48: the rationals, with the operations of the library, present the field of rationals; so the generic field code
(favourite associates, Euclidean division, gcd) applies. -/
theorem C48_rat_structure : ratOps.Models (id : ℚ → ℚ) ∧ ratOps.fieldEuc.Models (id : ℚ → ℚ) :=
  ⟨ratOps_models, ratOps_models.fieldEuc⟩

/-- C48: `numerator`/`denominator` are in lowest terms with a positive denominator and their quotient is the number; a rational
is recognised as an integer exactly when it is one. -/
theorem C48_rat_fraction (x : ℚ) :
    0 < ratDenominator x ∧ Int.gcd (ratNumerator x) (ratDenominator x) = 1 ∧
    (ratNumerator x : ℚ) / (ratDenominator x : ℚ) = x ∧
    ∀ z : Int, asBaseRing intRing.toSemiRingOps ratNumerator ratDenominator x = some z ↔ x = z := by
  have hn : ratNumerator x = x.num := by
    unfold ratNumerator
    split
    · rename_i h
      have := Rat.num_nonneg.2 h
      omega
    · rename_i h
      have := Rat.num_neg.2 (not_le.1 h)
      omega
  have hd : ratDenominator x = x.den := rfl
  have hx : (x.num : ℚ) / (x.den : ℚ) = x := Rat.num_div_den x
  have hint : ∀ z : Int, asBaseRing intRing.toSemiRingOps ratNumerator ratDenominator x = some z ↔ x = z := by
    intro z
    unfold asBaseRing
    rw [hn, hd]
    simp only [intRing, beq_iff_eq]
    constructor
    · intro e
      split at e
      · rename_i h1
        have h1' : x.den = 1 := by exact_mod_cast h1
        simp only [Option.some.injEq] at e
        rw [← hx, h1', e]; simp
      · simp at e
    · rintro rfl
      simp
  refine ⟨by rw [hd]; exact_mod_cast x.den_pos, by rw [hn, hd]; exact x.reduced, by rw [hn, hd]; exact_mod_cast hx, hint⟩

/-- C48: `floor`, `ceil` and `round` of a rational: the greatest integer below, the least integer above, and an integer at
distance at most one half. -/
theorem C48_rat_rounding (x : ℚ) :
    (∀ z : Int, z ≤ ratFloor x ↔ (z : ℚ) ≤ x) ∧ (∀ z : Int, ratCeil x ≤ z ↔ x ≤ (z : ℚ)) ∧
    |x - (ratRound x : ℚ)| ≤ 1 / 2 := by
  refine ⟨fun z => Int.le_floor, fun z => ?_, ?_⟩
  · unfold ratCeil ratFloor
    rw [neg_le, Int.le_floor]
    push_cast
    exact neg_le_neg_iff
  · unfold ratRound ratFloor
    rw [abs_le]
    have h1 := Int.floor_le (x + 1 / 2)
    have h2 := Int.lt_floor_add_one (x + 1 / 2)
    constructor <;> linarith

example : ratRound (7 / 4) = 2 := by
  rw [ratRound, ratFloor, Int.floor_eq_iff]; norm_num
example : (∀ i j, id (intRing.generated i) = id (intRing.generated j) → i = j) := (C48_generate_distinct intRing_models).1
example : intRing.abs compare (-7) = 7 := by
  have := C48_abs intRing_models compare (fun _ _ => rfl) (-7); simpa using this

end Verif.Rings
