import Verif.Proofs.PadicWrong

/-!
# Properties of p-adic algebraic numbers

`x.Is z` (Spec/Padic) says that the value `x` of the library stands for the `p`-adic number `z`; `ℚ_[p]` and its norm are Mathlib's.
-/

namespace Verif.Padic

open Polynomial Verif.Rings Verif.RealRoots

section
variable {p : ℕ} [hp : Fact p.Prime]

/-! ## C154: valuations -/

/-- **C154**: the valuation of a natural number, of an integer and of a rational number is infinite for zero only and otherwise the exponent of `p`. -/
theorem C154_valuation (n : ℕ) (m : ℤ) (q : ℚ) :
    natVal p n = (if n = 0 then .infinity else .finite (padicValNat p n)) ∧
    intVal p m = (if m = 0 then .infinity else .finite (padicValInt p m)) ∧
    ratVal p q = some (if q = 0 then .infinity else .finite (padicValRat p q)) := by
  refine ⟨?_, ?_, ?_⟩
  · split
    · rename_i h; rw [h, natVal_zero]
    · rename_i h; exact natVal_eq hp.out h
  · split
    · rename_i h; rw [h, intVal_zero]
    · rename_i h; exact intVal_eq hp.out h
  · split
    · rename_i h; rw [h, ratVal_zero]
    · rename_i h; exact ratVal_eq hp.out h

/-- The valuation is what the `p`-adic absolute value is made of, and its order is the opposite order. -/
theorem C154_norm (q : ℚ) : ∃ w, ratVal p q = some w ∧ w.norm p = ‖(q : ℚ_[p])‖ := ratVal_norm q

theorem C154_order (a b : Valu) : (a.le b = true ↔ b.norm p ≤ a.norm p) ∧ (a.lt b = true ↔ b.norm p < a.norm p) :=
  ⟨Valu.le_iff a b, Valu.lt_iff a b⟩

/-- The sum of two valuations is the valuation of the product, the difference that of the quotient. -/
theorem C154_add (q r : ℚ) : ∃ v w, ratVal p q = some v ∧ ratVal p r = some w ∧ ratVal p (q * r) = some (v.add w) ∧
    (r ≠ 0 → ratVal p (q / r) = v.sub w) := by
  by_cases hq : q = 0
  · obtain ⟨w, w1, -⟩ := ratVal_norm (p := p) r
    refine ⟨_, w, by rw [hq]; exact ratVal_zero p, w1, by rw [hq, zero_mul, ratVal_zero]; cases w <;> rfl, fun hr => ?_⟩
    rw [hq, zero_div, ratVal_zero]
    rw [ratVal_eq hp.out hr] at w1
    rw [← Option.some.inj w1]; rfl
  · by_cases hr : r = 0
    · exact ⟨_, _, ratVal_eq hp.out hq, by rw [hr]; exact ratVal_zero p, by rw [hr, mul_zero, ratVal_zero]; rfl, fun h => absurd hr h⟩
    · refine ⟨_, _, ratVal_eq hp.out hq, ratVal_eq hp.out hr, ?_, fun _ => ?_⟩
      · rw [ratVal_eq hp.out (mul_ne_zero hq hr), padicValRat.mul hq hr]; rfl
      · rw [ratVal_eq hp.out (div_ne_zero hq hr), padicValRat.div hq hr]; rfl

/-! ## C155: digits of rational numbers -/

/-- **C155**: truncating a rational number modulo `p ^ c` always succeeds: the value is congruent to the number modulo `p ^ c`, and the digits are
the digits of that value, as many as there are between the valuation and `c`, the first of them not zero. -/
theorem C155_truncate (q : ℚ) (c : ℤ) : ∃ t, ratTruncate p q c = some t ∧ ‖(q : ℚ_[p]) - (t.rationalValue p : ℚ_[p])‖ ≤ (p : ℝ) ^ (-c) ∧
    ((t.digits p = none ∧ ‖(q : ℚ_[p])‖ ≤ (p : ℝ) ^ (-c)) ∨ ∃ ds s, t.digits p = some (ds, s) ∧ DigitsOf p ds s (q : ℚ_[p]) c) := by
  obtain ⟨t, t1, t2⟩ := ratTruncate_spec (p := p) q c
  exact ⟨t, t1, t2.close, t2.digits⟩

/-- Two rational numbers have the same truncation if and only if they are congruent modulo `p ^ c`. -/
theorem C155_truncate_eq (q r : ℚ) (c : ℤ) : ratTruncate p q c = ratTruncate p r c ↔ ‖(q : ℚ_[p]) - (r : ℚ_[p])‖ ≤ (p : ℝ) ^ (-c) := by
  obtain ⟨t, t1, t2⟩ := ratTruncate_spec (p := p) q c
  obtain ⟨u, u1, u2⟩ := ratTruncate_spec (p := p) r c
  rw [t1, u1, Option.some_inj]
  constructor
  · rintro rfl
    have := sub_le t2.close u2.close
    rwa [sub_sub_sub_cancel_right] at this
  · exact t2.unique u2

/-! ## C156: isolation of the roots of an irreducible polynomial -/

/-- **C156**: `isolate` of an irreducible integer polynomial of degree at least two returns balls, each of which contains exactly one root in the
`p`-adic numbers; every root is in exactly one of them, and different balls belong to different roots. -/
theorem C156_isolate {fac : Fac} (hfac : FacOk fac) (f : List Int) (hirr : Irreducible (polyVal (id : Int → Int) f))
    (hd : 2 ≤ (polyVal (id : Int → Int) f).natDegree) :
    ∃ (bs : List Ball) (xs : List ℚ_[p]), isolate fac p f = some bs ∧ List.Forall₂ (Ball.Isolates f) bs xs ∧ xs.Nodup ∧
      ∀ z : ℚ_[p], z ∈ xs ↔ (pv p f).eval z = 0 := by
  obtain ⟨bs, h1, xs, h2, h3, h4⟩ := isolate_spec (p := p) hfac f hirr hd
  exact ⟨bs, xs, h1, h2.imp fun _ _ h => h.1, h3, h4⟩

/-! ## C157: all roots -/

/-- **C157, part**: `all_padic_roots` of a primitive polynomial returns values that stand for the roots, each as often as its multiplicity.
Missing: polynomials that are not primitive, for which it panics (`C157_nonprimitive_wrong`). -/
theorem C157_all_padic_roots_partial {fac : Fac} (hfac : FacOk fac) (f : List Int) (hf : (polyVal (id : Int → Int) f).IsPrimitive) :
    ∃ (l : List PAlg) (xs : List ℚ_[p]), allPadicRoots fac p f = some l ∧ List.Forall₂ PAlg.Is l xs ∧ (xs : Multiset ℚ_[p]) = (pv p f).roots ∧
      ∀ x ∈ l, x.Positive := by
  obtain ⟨l, xs, h1, h2, h3, h4⟩ := allPadicRoots_spec (p := p) hfac hf
  refine ⟨l, xs, h1, h2, h3, fun x hx => ?_⟩
  cases x with
  | rat _ => trivial
  | root r => exact h4 r hx

/-- **C157, negation**: `all_padic_roots` of a nonzero polynomial that is not primitive panics. -/
theorem C157_nonprimitive_wrong {fac : Fac} (hfac : FacOk fac) (f : List Int) (h0 : polyVal (id : Int → Int) f ≠ 0)
    (hf : ¬ (polyVal (id : Int → Int) f).IsPrimitive) : allPadicRoots fac p f = none := allPadicRoots_none hfac h0 hf

/-! ## C158: refinement -/

/-- **C158, part**: refining a root keeps its polynomial and the number, and makes the radius at most `p ^ (-n)`, unless it was smaller before; it
always returns without debug assertions, and with them if the derivative is integral at the number.
Missing: with debug assertions, the other numbers (`C158_debug_wrong`). -/
theorem C158_refine_partial {fac : Fac} (hfac : FacOk fac) (dbg : Bool) (n : ℤ) (r : PRoot) (x : ℚ_[p]) (h : r.Is x)
    (hs : (PAlg.root r).Safe dbg x) :
    ∃ s, r.refine dbg fac p n = some s ∧ s.poly = r.poly ∧ s.Is x ∧ s.approx.v = max r.approx.v n :=
  PRoot.refine_spec hfac dbg n _ r rfl h hs

/-- Integral numbers are safe. -/
theorem C158_integral (dbg : Bool) (x : PAlg) (z : ℚ_[p]) (hz : ‖z‖ ≤ 1) : x.Safe dbg z := by
  cases x with
  | rat _ => trivial
  | root r => exact fun _ => deriv_integral r.poly hz

/-! ## C159: digits of algebraic numbers -/

/-- **C159**: truncating a number modulo `p ^ n` gives a value congruent to the number modulo `p ^ n`, with the right digits, and leaves a
representation of the same number. -/
theorem C159_truncate {fac : Fac} (hfac : FacOk fac) (dbg : Bool) (n : ℤ) (x : PAlg) (z : ℚ_[p]) (h : x.Is z) (hs : x.Safe dbg z) :
    ∃ t y, x.truncate dbg fac p n = some (t, y) ∧ y.Is z ∧ ‖z - (t.rationalValue p : ℚ_[p])‖ ≤ (p : ℝ) ^ (-n) ∧
      ((t.digits p = none ∧ ‖z‖ ≤ (p : ℝ) ^ (-n)) ∨ ∃ ds s, t.digits p = some (ds, s) ∧ DigitsOf p ds s z n) := by
  cases x with
  | rat q =>
    obtain ⟨t, t1, t2⟩ := ratTruncate_spec (p := p) q n
    obtain rfl : z = (q : ℚ_[p]) := h
    exact ⟨t, .rat q, by simp [PAlg.truncate, t1], rfl, t2.close, t2.digits⟩
  | root r =>
    obtain ⟨t, s, t1, t2, -, t4, -⟩ := PRoot.truncate_spec hfac dbg n r h hs
    exact ⟨t, .root s, by simp [PAlg.truncate, t1], t4, t2.close, t2.digits⟩

/-! ## C160: equality -/

/-- **C160, part**: `equal` of two numbers with polynomials of positive leading coefficient says whether they are the same number. Missing: values
with a negative leading coefficient, which negation makes (`C160_neg_wrong`). -/
theorem C160_equal_partial {fac : Fac} (hfac : FacOk fac) (dbg : Bool) (x y : PAlg) (z w : ℚ_[p]) (hx : x.Is z) (hy : y.Is w) (hx' : x.Positive)
    (hy' : y.Positive) (hs : x.Safe dbg z) (ht : y.Safe dbg w) : ∃ b, x.equal dbg fac p y = some b ∧ (b = true ↔ z = w) := by
  cases x with
  | rat a =>
    obtain rfl : z = (a : ℚ_[p]) := hx
    cases y with
    | rat b =>
      obtain rfl : w = (b : ℚ_[p]) := hy
      exact ⟨a == b, rfl, by rw [beq_iff_eq, Rat.cast_inj]⟩
    | root s => exact ⟨false, rfl, by simpa using (PRoot.Is.irrational hy a).symm⟩
  | root r =>
    cases y with
    | rat b =>
      obtain rfl : w = (b : ℚ_[p]) := hy
      exact ⟨false, rfl, by simpa using PRoot.Is.irrational hx b⟩
    | root s =>
      obtain ⟨b, b1, b2⟩ := PRoot.equal_spec hfac dbg r s hx hy (fun h => ⟨hs h, ht h⟩)
      refine ⟨b, b1, b2.trans ⟨fun h => h.2, fun h => ⟨?_, h⟩⟩⟩
      subst h
      exact eq_of_associated (eq_of_common_root hx.reduced hy.reduced hx.irreducible hy.irreducible hx.degree hy.degree hx.isolates.root hy.isolates.root) hx' hy'

/-- **C160, negation**: the negative of a value of odd degree with positive leading coefficient is different, for `equal`, from every root that
`all_padic_roots` gives, also from the one that stands for the same number. -/
theorem C160_neg_wrong (fac : Fac) (dbg : Bool) (r s : PRoot) (x : ℚ_[p]) (hr : r.Is x) (_hs : s.Is (-x))
    (hodd : Odd (polyVal (id : Int → Int) r.poly).natDegree) (hr' : (PAlg.root r).Positive) (hs' : (PAlg.root s).Positive) :
    PAlg.equal dbg fac p (PAlg.root r).neg (.root s) = some false := neg_odd_equal dbg hr hodd hr' hs'

/-! ## C161: negation -/

/-- **C161**: the negative of a value stands for the negative number. -/
theorem C161_neg (x : PAlg) (z : ℚ_[p]) (hx : x.Is z) : x.neg.Is (-z) := by
  cases x with
  | rat q => obtain rfl : z = (q : ℚ_[p]) := hx; simp [PAlg.neg, PAlg.Is]
  | root r => exact (PRoot.neg_spec hx).1

/-! ## C162: multiplication by a rational number -/

/-- **C162**: the product with a rational number stands for the product. -/
theorem C162_mul_rat {fac : Fac} (hfac : FacOk fac) (dbg : Bool) (prodPoly : List Int → List Int → Option (List Int)) (x : PAlg) (z : ℚ_[p]) (hx : x.Is z)
    (a : ℚ) :
    (∃ y, PAlg.mul dbg fac p prodPoly x (.rat a) = some y ∧ y.Is (z * (a : ℚ_[p]))) ∧
    (∃ y, PAlg.mul dbg fac p prodPoly (.rat a) x = some y ∧ y.Is ((a : ℚ_[p]) * z)) := by
  cases x with
  | rat b =>
    obtain rfl : z = (b : ℚ_[p]) := hx
    exact ⟨⟨.rat (b * a), rfl, by simp [PAlg.Is]⟩, ⟨.rat (a * b), rfl, by simp [PAlg.Is]⟩⟩
  | root r =>
    obtain ⟨y, y1, y2, -⟩ := PRoot.mulRat_spec hfac hx a
    exact ⟨⟨y, y1, y2⟩, ⟨y, y1, by rw [mul_comm]; exact y2⟩⟩

/-! ## C163: addition of a rational number -/

/-- **C163, part**: the sum with a rational number has a polynomial and a ball that isolate the sum. Missing: the sum can be refined, which fails
(`C163_refine_wrong`). -/
theorem C163_add_rat_partial (r : PRoot) (x : ℚ_[p]) (hr : r.Is x) (a : ℚ) :
    ∃ s, r.addRat a = some s ∧ s.Denotes (x + (a : ℚ_[p])) ∧ ((PAlg.root r).Positive → (PAlg.root s).Positive) := by
  obtain ⟨s, s1, s2, s3, -⟩ := PRoot.addRat_spec (p := p) ⟨hr.reduced, hr.irreducible, hr.degree, hr.isolates⟩ a
  exact ⟨s, s1, s2, s3⟩

/-- **C163, negation**: the sum of a root with minus the centre of its ball is a representation of the sum that panics when it is refined, for
example to find more digits. -/
theorem C163_refine_wrong (fac : Fac) (dbg : Bool) (r : PRoot) (x : ℚ_[p]) (hr : r.Is x) (n : ℤ) (hn : r.approx.v < n) :
    ∃ s, r.addRat (-r.approx.a) = some s ∧ s.Denotes (x - (r.approx.a : ℚ_[p])) ∧ s.refine dbg fac p n = none ∧ s.truncate dbg fac p n = none := by
  obtain ⟨s, s1, s2, s3⟩ := addRat_center_none fac dbg (⟨hr.reduced, hr.irreducible, hr.degree, hr.isolates⟩ : r.Denotes x) hn
  exact ⟨s, s1, s2, s3, by simp [PRoot.truncate, s3]⟩

end

/-! ## The hypotheses can be met -/

section
local instance : Fact (Nat.Prime 2) := ⟨Nat.prime_two⟩

/-- `C158`, negation: the root of `2x³ + x² - x + 1` in the 2-adic numbers, as `isolate` gives it, panics with debug assertions when one more digit
is computed. -/
theorem C158_debug_wrong {fac : Fac} (hfac : FacOk fac) : ∃ (b : Ball) (x : ℚ_[2]), isolate fac 2 [1, -1, 1, 2] = some [b] ∧
    PRoot.Is ⟨[1, -1, 1, 2], b⟩ x ∧ PRoot.refine true fac 2 (b.v + 1) ⟨[1, -1, 1, 2], b⟩ = none := by
  obtain ⟨x, hx⟩ := exists_cubic
  exact ⟨⟨1 / 2, 0⟩, x, isolateCubic hfac, hx, cubicRefine_none hfac⟩

/-- `C154`: the valuation of `-12/5` at 2. -/
example : ratVal 2 (-12 / 5) = some (.finite 2) := by decide +kernel

/-- `C155`: the digits of `1/3` modulo 8 are `1 1 0`: `1/3 = 3` modulo 8. -/
example : (ratTruncate 2 (1 / 3) 3).map (Trunc.digits 2) = some (some ([1, 1, 0], 0)) := by
  rw [show (3 : ℤ) = 0 + (3 : ℕ) by norm_num, ratTruncate_of (v := 3) (by decide) (by decide) (by decide) (by decide +kernel)]
  rfl

/-- `C156`, `C158`, `C159`: the square roots of 17 in the 2-adic numbers. -/
example {fac : Fac} (hfac : FacOk fac) : ∃ x : ℚ_[2], x ^ 2 = 17 ∧ isolate fac 2 [-17, 0, 1] = some [⟨1, 2⟩, ⟨3, 2⟩] ∧
    (∃ s, PRoot.refine true fac 2 100 ⟨[-17, 0, 1], ⟨1, 2⟩⟩ = some s ∧ s.Is x ∧ s.approx.v = 100) ∧
    PAlg.equal true fac 2 (.root ⟨[-17, 0, 1], ⟨1, 2⟩⟩) (.root ⟨[-17, 0, 1], ⟨3, 2⟩⟩) = some false ∧
    (PAlg.neg (.root ⟨[-17, 0, 1], ⟨1, 2⟩⟩)).Is (-x) ∧
    (∃ s, PRoot.addRat ⟨[-17, 0, 1], ⟨1, 2⟩⟩ (-1) = some s ∧ s.Denotes (x - 1) ∧ s.refine true fac 2 3 = none) := by
  obtain ⟨x, h1, h2, h3⟩ := exists_sqrt17
  have hx : ‖x‖ ≤ 1 := by
    have := congrArg norm h3
    rw [norm_pow] at this
    have h17 : ‖(17 : ℚ_[2])‖ ≤ 1 := by exact_mod_cast _root_.Padic.norm_int_le_one (p := 2) 17
    by_contra hc
    nlinarith [norm_nonneg x]
  have hsafe : (PAlg.root ⟨[-17, 0, 1], ⟨1, 2⟩⟩).Safe true x := C158_integral _ _ _ hx
  have hsafe' : (PAlg.root ⟨[-17, 0, 1], ⟨3, 2⟩⟩).Safe true (-x) := C158_integral _ _ _ (by rw [norm_neg]; exact hx)
  have hpos : 0 < (polyVal (id : Int → Int) [-17, 0, 1]).leadingCoeff := (quad_ok no_sqrt17).positive
  refine ⟨x, h3, isolate17 hfac, ?_, ?_, C161_neg (.root _) x h1, ?_⟩
  · obtain ⟨s, s1, -, s2, s3⟩ := C158_refine_partial hfac true 100 _ x h1 hsafe
    exact ⟨s, s1, s2, s3⟩
  · obtain ⟨b, b1, b2⟩ := C160_equal_partial hfac true (.root _) (.root _) x (-x) h1 h2 hpos hpos hsafe hsafe'
    rw [b1, Option.some_inj, ← Bool.not_eq_true, b2]
    intro e
    have : x = 0 := by linear_combination (1 / 2 : ℚ_[2]) * e
    rw [this] at h3; norm_num at h3
  · obtain ⟨s, s1, s2, s3, -⟩ := C163_refine_wrong fac true _ x h1 3 (by decide)
    exact ⟨s, s1, by simpa using s2, s3⟩

/-- `C157`: the 2-adic roots of `x² - 17`; and `2x² - 34` panics. -/
example {fac : Fac} (hfac : FacOk fac) : (∃ (l : List PAlg) (xs : List ℚ_[2]), allPadicRoots fac 2 [-17, 0, 1] = some l ∧ List.Forall₂ PAlg.Is l xs ∧
      ∃ x ∈ xs, x ^ 2 = 17) ∧ allPadicRoots fac 2 [-34, 0, 2] = none := by
  constructor
  · obtain ⟨l, xs, h1, h2, h3, -⟩ := C157_all_padic_roots_partial (p := 2) hfac [-17, 0, 1] (irr17.isPrimitive (by have := deg17; omega))
    obtain ⟨x, k1, -, k3⟩ := exists_sqrt17
    refine ⟨l, xs, h1, h2, x, ?_, k3⟩
    have : x ∈ (pv 2 [-17, 0, 1]).roots := by
      rw [mem_roots ((Polynomial.map_ne_zero_iff (RingHom.injective_int _)).2 irr17.ne_zero)]
      exact k1.isolates.root
    rw [← h3] at this
    exact this
  · have hv : polyVal (id : Int → Int) [-34, 0, 2] = C 2 * (X ^ 2 - C 17) := by
      rw [show polyVal (id : Int → Int) [-34, 0, 2] = C 2 * X ^ 2 + C 0 * X + C (-34) from quad_val _ _ _]
      rw [mul_sub, ← C_mul]; simp; ring
    refine C157_nonprimitive_wrong hfac _ ?_ ?_
    · rw [hv]; exact mul_ne_zero (by simp) (X_pow_sub_C_ne_zero (by decide) _)
    · intro h
      have := h 2 (by rw [hv]; exact dvd_mul_right _ _)
      rw [Int.isUnit_iff] at this
      omega

/-- `C160`, negation: the root of `2x³ + x² - x + 1` and a root of the polynomial of the negative numbers. -/
example {fac : Fac} (hfac : FacOk fac) : ∃ (r s : PRoot) (x : ℚ_[2]), r.Is x ∧ s.Is (-x) ∧ Odd (polyVal (id : Int → Int) r.poly).natDegree ∧
    PAlg.equal true fac 2 (PAlg.root r).neg (.root s) = some false := by
  obtain ⟨x, hx⟩ := exists_cubic
  have hlc : (polyVal (id : Int → Int) [1, -1, 1, 2]).leadingCoeff = 2 := by
    rw [show polyVal (id : Int → Int) [1, -1, 1, 2] = _ from cubic_val _ _ _ _]; exact leadingCoeff_cubic (by decide)
  obtain ⟨hn, hl⟩ := PRoot.neg_spec hx
  have hprim : (polyVal (id : Int → Int) [-1, -1, -1, 2]).IsPrimitive := by
    intro r hr
    rw [C_dvd_iff_dvd_coeff] at hr
    have := hr 0
    rw [coeff_polyVal (id : Int → Int) 0 rfl] at this
    exact isUnit_of_dvd_one (by simpa using this)
  obtain ⟨l, xs, h1, h2, h3, h4⟩ := C157_all_padic_roots_partial (p := 2) hfac [-1, -1, -1, 2] hprim
  have hev : ∀ z : ℚ_[2], (pv 2 [-1, -1, -1, 2]).eval z = 2 * z ^ 3 - z ^ 2 - z - 1 := by
    intro z; rw [pv, show polyVal (id : Int → Int) [-1, -1, -1, 2] = _ from cubic_val _ _ _ _]; simp; ring
  have hmem : -x ∈ xs := by
    have : -x ∈ (pv 2 [-1, -1, -1, 2]).roots := by
      rw [mem_roots ((Polynomial.map_ne_zero_iff (RingHom.injective_int _)).2 hprim.ne_zero), IsRoot, hev]
      have := hx.isolates.root
      rw [pv, show polyVal (id : Int → Int) [1, -1, 1, 2] = _ from cubic_val _ _ _ _] at this
      simp at this
      linear_combination -this
    rw [← h3] at this
    exact this
  obtain ⟨a, ha, hax⟩ : ∃ a ∈ l, a.Is (-x) := by
    clear h1 h3 h4
    induction h2 with
    | nil => simp at hmem
    | cons h _ ih =>
      rcases List.mem_cons.1 hmem with e | e
      · exact ⟨_, List.mem_cons_self, by rw [e]; exact h⟩
      · obtain ⟨a, a1, a2⟩ := ih e
        exact ⟨a, List.mem_cons_of_mem _ a1, a2⟩
  cases a with
  | rat q => exact absurd hax (PRoot.Is.irrational hn q)
  | root s =>
    have hodd : Odd (polyVal (id : Int → Int) [1, -1, 1, 2]).natDegree := by rw [show (polyVal (id : Int → Int) [1, -1, 1, 2]).natDegree = 3 from degCubic]; decide
    exact ⟨_, s, x, hx, hax, hodd, C160_neg_wrong fac true _ s x hx hax hodd (by change 0 < (polyVal (id : Int → Int) [1, -1, 1, 2]).leadingCoeff; rw [hlc]; decide) (h4 _ ha)⟩

/-- `C162`: `3 √17`. -/
example {fac : Fac} (hfac : FacOk fac) : ∃ (x : ℚ_[2]) (y : PAlg), x ^ 2 = 17 ∧ PAlg.mul true fac 2 (fun _ _ => none) (.root ⟨[-17, 0, 1], ⟨1, 2⟩⟩) (.rat 3) = some y ∧
    y.Is (x * 3) := by
  obtain ⟨x, h1, -, h3⟩ := exists_sqrt17
  obtain ⟨y, y1, y2⟩ := (C162_mul_rat hfac true (fun _ _ => none) (.root _) x h1 3).1
  exact ⟨x, y, h3, y1, by simpa using y2⟩

end

end Verif.Padic
