import Verif.Proofs.PadicEx7
import Verif.Proofs.PolyTools

/-!
# Properties of sums, products and inverses of p-adic algebraic numbers

The functions find the polynomial of the result, list its `p`-adic roots and keep those whose ball meets the ball that interval arithmetic gives for the
result. `SearchOk` (Spec/Padic) is the condition under which the search keeps the result: `ok` says which numbers of digits are allowed in the ball that
`all_padic_roots` gives for the result.
-/

namespace Verif.Padic

open Polynomial Verif.Rings Verif.RealRoots

section
variable {p : ℕ} [hp : Fact p.Prime]

/-! ## C164: addition -/

/-- **C164, part**: the sum of two irrational numbers stands for the sum if the result is irrational and its ball has as many digits as the less
precise of the balls of the operands, or if the polynomial of the sums has only one root. Missing: the other sums; rational sums are lost
(`C164_add_wrong`). -/
theorem C164_add_partial {fac : Fac} (hfac : FacOk fac) (dbg : Bool) (H : HashOrder) {X Z : ℕ} (hXZ : X ≠ Z) (r s : PRoot) (x y : ℚ_[p]) (hx : r.Is x)
    (hy : s.Is y) (hrs : (PAlg.root r).Safe dbg x) (hss : (PAlg.root s).Safe dbg y)
    (hs : ∀ f, rootSumPoly H X Z r.poly s.poly = some f → SearchOk dbg fac f (x + y) fun M => max M 0 = max (min r.approx.v s.approx.v) 0) :
    ∃ z, PAlg.add dbg fac p (rootSumPoly H X Z) (.root r) (.root s) = some z ∧ z.Is (x + y) ∧ z.Positive :=
  PRoot.add_spec hfac dbg (rootSumPoly_exact H hXZ) hx hy hrs hss hs

/-- **C164**, rational operands: the sum of two rational numbers. -/
theorem C164_add_rat (fac : Fac) (dbg : Bool) (sumPoly : List Int → List Int → Option (List Int)) (a b : ℚ) :
    ∃ z, PAlg.add dbg fac p sumPoly (.rat a) (.rat b) = some z ∧ z.Is ((a : ℚ_[p]) + (b : ℚ_[p])) :=
  ⟨.rat (a + b), rfl, by simp [PAlg.Is]⟩

/-- **C164**, one rational operand: adding a rational number to an irrational one, on either side, gives an irrational number whose polynomial is
irreducible and whose ball, the ball of the operand moved by the rational number, holds the sum and no other root. -/
theorem C164_add_mixed (fac : Fac) (dbg : Bool) (sumPoly : List Int → List Int → Option (List Int)) (r : PRoot) (x : ℚ_[p]) (hx : r.Denotes x) (a : ℚ) :
    ∃ s : PRoot, s.Denotes (x + (a : ℚ_[p])) ∧ s.approx = ⟨r.approx.a + a, r.approx.v⟩ ∧
      PAlg.add dbg fac p sumPoly (.root r) (.rat a) = some (.root s) ∧ PAlg.add dbg fac p sumPoly (.rat a) (.root r) = some (.root s) := by
  obtain ⟨s, s1, s2, -, s3⟩ := PRoot.addRat_spec hx a
  exact ⟨s, s2, s3, by simp [PAlg.add, s1], by simp [PAlg.add, s1]⟩

/-- **C164, negation**: if the sum of two irrational numbers is rational, different from the sum of the centres of their balls, and the polynomials have
other roots with another sum, then `add` never gives the sum: it panics, gives a different number or does not end. -/
theorem C164_add_wrong {fac : Fac} (hfac : FacOk fac) (dbg : Bool) (H : HashOrder) {X Z : ℕ} (hXZ : X ≠ Z) (r s : PRoot) (x y x' y' : ℚ_[p]) (hx : r.Is x)
    (hy : s.Is y) (hx' : (pv p r.poly).eval x' = 0) (hy' : (pv p s.poly).eval y' = 0) (hne : x' + y' ≠ x + y) (hr0 : 0 ≤ r.approx.v)
    (hs0 : 0 ≤ s.approx.v) (q : ℚ) (hq : x + y = (q : ℚ_[p])) (hc : r.approx.a + s.approx.a ≠ q) (z : PAlg)
    (h : PAlg.add dbg fac p (rootSumPoly H X Z) (.root r) (.root s) = some z) : ¬ z.Is (x + y) :=
  PRoot.add_drop hfac dbg (rootSumPoly_exact H hXZ) hx hy hx' hy' hne hr0 hs0 hq hc h

/-! ## C165: multiplication -/

/-- **C165, part**: the product of two irrational units stands for the product if the result is irrational and its ball has at most as many digits as
the less precise of the balls of the operands, or if the polynomial of the products has only one root. Missing: numbers that are not units, and the other
products; rational products are lost (`C165_mul_wrong`). -/
theorem C165_mul_partial {fac : Fac} (hfac : FacOk fac) (dbg : Bool) (H : HashOrder) {X T : ℕ} (hXT : X ≠ T) (r s : PRoot) (x y : ℚ_[p]) (hx : r.Is x)
    (hy : s.Is y) (hx1 : ‖x‖ = 1) (hy1 : ‖y‖ = 1)
    (hs : ∀ f, rootProductPoly H X T r.poly s.poly = some f → SearchOk dbg fac f (x * y) fun M => max M 0 ≤ max (min r.approx.v s.approx.v) 0) :
    ∃ z, PAlg.mul dbg fac p (rootProductPoly H X T) (.root r) (.root s) = some z ∧ z.Is (x * y) ∧ z.Positive :=
  PRoot.mul_spec hfac dbg (rootProductPoly_exact H hXT) hx hy hx1 hy1 hs

/-- **C165**, rational operands: the product of two rational numbers, and the product of an irrational and a rational number on either side. -/
theorem C165_mul_rat {fac : Fac} (hfac : FacOk fac) (dbg : Bool) (prodPoly : List Int → List Int → Option (List Int)) (r : PRoot) (x : ℚ_[p]) (hx : r.Is x)
    (a b : ℚ) :
    (∃ z, PAlg.mul dbg fac p prodPoly (.rat a) (.rat b) = some z ∧ z.Is ((a : ℚ_[p]) * (b : ℚ_[p]))) ∧
    ∃ z, z.Is (x * (a : ℚ_[p])) ∧ PAlg.mul dbg fac p prodPoly (.root r) (.rat a) = some z ∧
      PAlg.mul dbg fac p prodPoly (.rat a) (.root r) = some z := by
  obtain ⟨z, z1, z2, -⟩ := PRoot.mulRat_spec hfac hx a
  exact ⟨⟨.rat (a * b), rfl, by simp [PAlg.Is]⟩, z, z2, by simp [PAlg.mul, z1], by simp [PAlg.mul, z1]⟩

/-- **C165, negation**: if the product of two irrational numbers is rational, different from the product of the centres of their balls, and the
polynomials have other roots with another product, then `mul` never gives the product. -/
theorem C165_mul_wrong {fac : Fac} (hfac : FacOk fac) (dbg : Bool) (H : HashOrder) {X T : ℕ} (hXT : X ≠ T) (r s : PRoot) (x y x' y' : ℚ_[p]) (hx : r.Is x)
    (hy : s.Is y) (hx' : (pv p r.poly).eval x' = 0) (hy' : (pv p s.poly).eval y' = 0) (hne : x' * y' ≠ x * y) (hr0 : 0 ≤ r.approx.v)
    (hs0 : 0 ≤ s.approx.v) (q : ℚ) (hq : x * y = (q : ℚ_[p])) (hc : r.approx.a * s.approx.a ≠ q) (z : PAlg)
    (h : PAlg.mul dbg fac p (rootProductPoly H X T) (.root r) (.root s) = some z) : ¬ z.Is (x * y) :=
  PRoot.mul_drop hfac dbg (rootProductPoly_exact H hXT) hx hy hx' hy' hne hr0 hs0 hq hc h

/-! ## C166: inverses and quotients -/

/-- **C166, part**: the inverse of an irrational unit stands for the inverse if its ball has as many digits as the ball of the operand, or if the
polynomial has only one root. Missing: irrational numbers that are not units, and balls of other sizes. -/
theorem C166_inv_partial {fac : Fac} (hfac : FacOk fac) (dbg : Bool) (r : PRoot) (x : ℚ_[p]) (hx : r.Is x) (hx1 : ‖x‖ = 1)
    (hs : ∀ u f, intPoly.factorFavAssoc r.poly.reverse = some (u, f) → SearchOk dbg fac f x⁻¹ fun M => max M 0 = max r.approx.v 0) :
    ∃ z, PAlg.inv dbg fac p (.root r) = some (.ok z) ∧ z.Is x⁻¹ ∧ z.Positive := by
  obtain ⟨z, z1, z2, z3⟩ := PRoot.inv_spec hfac dbg hx hx1 hs
  exact ⟨z, by simp [PAlg.inv, z1], z2, z3⟩

/-- **C166, rational numbers**: the inverse and the quotient of rational numbers, with an error exactly for zero. -/
theorem C166_rat (fac : Fac) (dbg : Bool) (prodPoly : List Int → List Int → Option (List Int)) (a b : ℚ) :
    (b ≠ 0 → ∃ z, PAlg.inv dbg fac p (.rat b) = some (.ok z) ∧ z.Is (b : ℚ_[p])⁻¹) ∧
    (b ≠ 0 → ∃ z, PAlg.div dbg fac p prodPoly (.rat a) (.rat b) = some (.ok z) ∧ z.Is ((a : ℚ_[p]) / (b : ℚ_[p]))) ∧
    PAlg.inv dbg fac p (.rat 0) = some (.error .divideByZero) ∧
    ∀ x, PAlg.div dbg fac p prodPoly x (.rat 0) = some (.error .divideByZero) := by
  refine ⟨fun h => ⟨.rat (1 / b), by simp [PAlg.inv, h], by simp [PAlg.Is]⟩, fun h => ⟨.rat (a / b), by simp [PAlg.div, h], by simp [PAlg.Is]⟩, rfl, ?_⟩
  intro x
  cases x <;> simp [PAlg.div, PAlg.inv]

/-- **C166**: the quotient of an irrational number by a nonzero rational number. -/
theorem C166_div_rat {fac : Fac} (hfac : FacOk fac) (dbg : Bool) (prodPoly : List Int → List Int → Option (List Int)) (r : PRoot) (x : ℚ_[p]) (hx : r.Is x)
    (b : ℚ) (hb : b ≠ 0) : ∃ z, PAlg.div dbg fac p prodPoly (.root r) (.rat b) = some (.ok z) ∧ z.Is (x / (b : ℚ_[p])) := by
  obtain ⟨z, z1, z2, -⟩ := PRoot.mulRat_spec hfac hx (1 / b)
  refine ⟨z, ?_, by rw [div_eq_mul_inv]; simpa using z2⟩
  simp only [PAlg.div, PAlg.inv, if_neg hb, PAlg.mul, z1, Option.bind_eq_bind, Option.bind_some, Option.map_some]

/-- **C166, part**: the quotient of a rational number by an irrational unit, under the conditions of `C166_inv_partial`. -/
theorem C166_rat_div_partial {fac : Fac} (hfac : FacOk fac) (dbg : Bool) (prodPoly : List Int → List Int → Option (List Int)) (a : ℚ) (r : PRoot) (x : ℚ_[p])
    (hx : r.Is x) (hx1 : ‖x‖ = 1)
    (hs : ∀ u f, intPoly.factorFavAssoc r.poly.reverse = some (u, f) → SearchOk dbg fac f x⁻¹ fun M => max M 0 = max r.approx.v 0) :
    ∃ z, PAlg.div dbg fac p prodPoly (.rat a) (.root r) = some (.ok z) ∧ z.Is ((a : ℚ_[p]) / x) := by
  obtain ⟨z, z1, z2, -⟩ := PRoot.inv_spec hfac dbg hx hx1 hs
  cases z with
  | rat b =>
    have hb : x⁻¹ = (b : ℚ_[p]) := z2
    exact ⟨.rat (a * b), by simp [PAlg.div, PAlg.inv, z1, PAlg.mul], by simp [PAlg.Is, ← hb, div_eq_mul_inv]⟩
  | root s =>
    obtain ⟨w, w1, w2, -⟩ := PRoot.mulRat_spec hfac z2 a
    exact ⟨w, by simp [PAlg.div, PAlg.inv, z1, PAlg.mul, w1], by rw [div_eq_mul_inv, mul_comm]; exact w2⟩

end

/-! ## The hypotheses can be met -/

section
local instance : Fact (Nat.Prime 2) := ⟨Nat.prime_two⟩

/-- `C164`, `C165`: `√17 + (-√17)` and `√17 * √17` in the 2-adic numbers are lost. -/
example {fac : Fac} (hfac : FacOk fac) (dbg : Bool) (H : HashOrder) : ∃ x : ℚ_[2], PRoot.Is ⟨[-17, 0, 1], ⟨1, 2⟩⟩ x ∧ PRoot.Is ⟨[-17, 0, 1], ⟨3, 2⟩⟩ (-x) ∧
    (∀ z, PAlg.add dbg fac 2 (rootSumPoly H 0 1) (.root ⟨[-17, 0, 1], ⟨1, 2⟩⟩) (.root ⟨[-17, 0, 1], ⟨3, 2⟩⟩) = some z → ¬ z.Is (0 : ℚ_[2])) ∧
    (∀ z, PAlg.mul dbg fac 2 (rootProductPoly H 0 1) (.root ⟨[-17, 0, 1], ⟨1, 2⟩⟩) (.root ⟨[-17, 0, 1], ⟨1, 2⟩⟩) = some z → ¬ z.Is (17 : ℚ_[2])) := by
  obtain ⟨x, h1, h2, h3⟩ := exists_sqrt17
  have h0 : x ≠ 0 := by rintro rfl; norm_num at h3
  refine ⟨x, h1, h2, fun z hz => ?_, fun z hz => ?_⟩
  · have := C164_add_wrong hfac dbg H (by decide) _ _ x (-x) x x h1 h2 h1.isolates.root h1.isolates.root
      (by intro e; apply h0; linear_combination (1 / 2 : ℚ_[2]) * e) (by decide) (by decide) 0 (by simp) (by norm_num) z hz
    rwa [add_neg_cancel] at this
  · have := C165_mul_wrong hfac dbg H (by decide) _ _ x x x (-x) h1 h1 h1.isolates.root h2.isolates.root
      (by intro e; have : (2 : ℚ_[2]) * x ^ 2 = 0 := by linear_combination -e
          rw [h3] at this; norm_num at this) (by decide) (by decide) 17 (by rw [← sq, h3]; norm_num) (by norm_num) z hz
    rwa [← sq, h3] at this

/-- `C164`, `C165`: `√17 + 1 / 2` and `3 * √17` in the 2-adic numbers. -/
example {fac : Fac} (hfac : FacOk fac) (dbg : Bool) (H : HashOrder) : ∃ x : ℚ_[2], x ^ 2 = 17 ∧
    (∃ s : PRoot, PAlg.add dbg fac 2 (rootSumPoly H 0 1) (.rat (1 / 2)) (.root ⟨[-17, 0, 1], ⟨1, 2⟩⟩) = some (.root s) ∧ s.Denotes (x + ((1 / 2 : ℚ) : ℚ_[2]))) ∧
    (∃ z, PAlg.mul dbg fac 2 (rootProductPoly H 0 1) (.rat 3) (.root ⟨[-17, 0, 1], ⟨1, 2⟩⟩) = some z ∧ z.Is (x * ((3 : ℚ) : ℚ_[2]))) := by
  obtain ⟨x, h1, -, h3⟩ := exists_sqrt17
  obtain ⟨s, s1, -, -, s2⟩ := C164_add_mixed fac dbg (rootSumPoly H 0 1) _ x ⟨h1.reduced, h1.irreducible, h1.degree, h1.isolates⟩ (1 / 2)
  obtain ⟨-, z, z1, -, z2⟩ := C165_mul_rat hfac dbg (rootProductPoly H 0 1) _ x h1 3 0
  exact ⟨x, h3, ⟨s, s2, s1⟩, z, z2, z1⟩

end

section
local instance : Fact (Nat.Prime 7) := ⟨by norm_num⟩

/-- `C164`, `C165`, `C166`: `√2 + √2`, `√2 * √11` and `1 / √2` in the 7-adic numbers. -/
example {fac : Fac} (hfac : FacOk fac) (dbg : Bool) (H : HashOrder) : ∃ x y : ℚ_[7], x ^ 2 = 2 ∧ y ^ 2 = 11 ∧
    (∃ z, PAlg.add dbg fac 7 (rootSumPoly H 0 1) (.root ⟨[-2, 0, 1], ⟨3, 1⟩⟩) (.root ⟨[-2, 0, 1], ⟨3, 1⟩⟩) = some z ∧ z.Is (2 * x)) ∧
    (∃ z, PAlg.mul dbg fac 7 (rootProductPoly H 0 1) (.root ⟨[-2, 0, 1], ⟨3, 1⟩⟩) (.root ⟨[-11, 0, 1], ⟨2, 1⟩⟩) = some z ∧ z.Is (x * y)) ∧
    (∃ z, PAlg.inv dbg fac 7 (.root ⟨[-2, 0, 1], ⟨3, 1⟩⟩) = some (.ok z) ∧ z.Is x⁻¹) := by
  obtain ⟨x, hx, hx2⟩ := exists_quad7 (n := 2) ok2 fun fac hf => iso2 hf
  obtain ⟨y, hy, hy2⟩ := exists_quad7 (n := 11) ok11 fun fac hf => iso11 hf
  push_cast at hx2 hy2
  have xi : ‖x‖ = 1 := unit_of_sq (n := 2) (by rw [hx2]; norm_num) (by norm_num)
  have yi : ‖y‖ = 1 := unit_of_sq (n := 11) (by rw [hy2]; norm_num) (by norm_num)
  refine ⟨x, y, hx2, hy2, ?_, ?_, ?_⟩
  · obtain ⟨z, z1, z2, -⟩ := C164_add_partial hfac dbg H (X := 0) (Z := 1) (by decide) _ _ x x hx hx (fun _ => deriv_integral _ xi.le) (fun _ => deriv_integral _ xi.le) (by
      intro f hf
      obtain ⟨f1, f2⟩ := op_roots (rootSumPoly_exact H (by decide)) hf ok2 ok2 (X * (X ^ 2 - 8)) (by
        intro u v hu hv
        simp only [Polynomial.map_mul, map_X, Polynomial.map_sub, Polynomial.map_pow, eval_mul, eval_X, eval_sub, eval_pow]
        have : (u - v) * (u + v) = 0 := by push_cast at hu hv; linear_combination hu - hv
        rcases mul_eq_zero.1 this with e | e
        · have : v = u := by linear_combination -e
          subst this
          simp
          right
          push_cast at hu
          linear_combination 4 * hu
        · rw [e]; simp)
      refine searchOk_of hfac f1 (fun z hz => ?_) ok8 ?_ (iso8 hfac) (by simp)
      · have := f2 z hz
        simp at this
        rcases this with e | e
        · rw [e]; simp
        · exact integral_of_sq (n := 8) (by push_cast; linear_combination e)
      · rw [show pv 7 [-8, 0, 1] = _ from rfl, eval_quad]; push_cast; linear_combination 4 * hx2)
    exact ⟨z, z1, by rw [two_mul]; exact z2⟩
  · obtain ⟨z, z1, z2, -⟩ := C165_mul_partial hfac dbg H (X := 0) (T := 1) (by decide) _ _ x y hx hy xi yi (by
      intro f hf
      obtain ⟨f1, f2⟩ := op_roots (rootProductPoly_exact H (by decide)) hf ok2 ok11 (X ^ 2 - 22) (by
        intro u v hu hv
        simp only [Polynomial.map_sub, Polynomial.map_pow, map_X, eval_sub, eval_pow, eval_X, mul_pow, hu, hv]
        simp
        norm_num)
      refine searchOk_of hfac f1 (fun z hz => ?_) ok22 ?_ (iso22 hfac) (by simp)
      · have := f2 z hz
        simp at this
        exact integral_of_sq (n := 22) (by push_cast; linear_combination this)
      · rw [show pv 7 [-22, 0, 1] = _ from rfl, eval_quad, mul_pow, hx2, hy2]; norm_num)
    exact ⟨z, z1, z2⟩
  · obtain ⟨z, z1, z2, -⟩ := C166_inv_partial hfac dbg _ x hx xi (by
      intro u f hf
      obtain ⟨u', g, g1, g2, g3, g4⟩ := invPoly_spec hx
      rw [hf, Option.some_inj, Prod.mk.injEq] at g1
      obtain ⟨rfl, rfl⟩ := g1
      have e : intPoly.factorFavAssoc ([-2, 0, 1] : List Int).reverse = some ([-1], [-1, 0, 2]) := by decide +kernel
      rw [show (PRoot.poly ⟨[-2, 0, 1], ⟨3, 1⟩⟩).reverse = ([-2, 0, 1] : List Int).reverse from rfl, e, Option.some_inj, Prod.mk.injEq] at hf
      obtain ⟨rfl, rfl⟩ := hf
      have hok : PolyOk [-1, 0, 2] := ⟨by intro c hc; simp at hc; rw [← hc]; decide, g2, by rw [quad_val, leadingCoeff_quadratic two_ne_zero]; norm_num, g3⟩
      refine searchOk_of hfac (g2.isPrimitive (by omega)) (fun z hz => ?_) hok g4
        (isolate_quad7 (bs := [⟨2, 1⟩, ⟨5, 1⟩]) hfac g2 (degQ two_ne_zero) two_ne_zero (by decide +kernel) (by decide +kernel) (by decide +kernel)
          (by decide +kernel) (by decide +kernel) (by decide +kernel) (by decide +kernel)) (by simp)
      rw [show pv 7 [-1, 0, 2] = _ from rfl, eval_quad] at hz
      have h2 : ‖(2 : ℚ_[7]) * z ^ 2‖ = 1 := by
        rw [show (2 : ℚ_[7]) * z ^ 2 = 1 by push_cast at hz; linear_combination hz, norm_one]
      have h3 : ‖(2 : ℚ_[7])‖ = 1 := by
        have : ‖(2 : ℚ_[7])‖ = ‖x‖ ^ 2 := by rw [← norm_pow, hx2]
        rw [this, xi, one_pow]
      rw [norm_mul, h3, one_mul, norm_pow] at h2
      exact ((pow_eq_one_iff_of_nonneg (norm_nonneg _) two_ne_zero).1 h2).le)
    exact ⟨z, z1, z2⟩

end

end Verif.Padic
