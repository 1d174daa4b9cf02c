import Verif.Proofs.PadicEx

/-!
# Where the p-adic numbers go wrong
-/

namespace Verif.Padic

open Polynomial Verif.Rings Verif.RealRoots

local instance : Fact (Nat.Prime 2) := ⟨Nat.prime_two⟩

theorem norm_le_of_ratVal {p : ℕ} [Fact p.Prime] {q : ℚ} {k : ℤ} (h : (ratVal p q).map (fun w => (Valu.finite k).le w) = some true) :
    ‖(q : ℚ_[p])‖ ≤ (p : ℝ) ^ (-k) := by
  obtain ⟨w, w1, w2⟩ := ratVal_norm (p := p) q
  rw [w1, Option.map_some, Option.some_inj, Valu.le_iff (p := p), w2] at h
  exact h

theorem ratTruncate_eq {p : ℕ} [Fact p.Prime] {q : ℚ} {c : ℤ} {t : Trunc} (h : t.Of p (q : ℚ_[p]) c) : ratTruncate p q c = some t := by
  obtain ⟨u, u1, u2⟩ := ratTruncate_spec (p := p) q c
  rw [u1, u2.unique h (by rw [sub_self, norm_zero]; exact (zpow_pos p_pos _).le)]

/-- A truncation from congruence of rational numbers. -/
theorem ratTruncate_of {p : ℕ} [Fact p.Prime] {q : ℚ} {s : ℤ} {v n : ℕ} (hn : 0 < n) (hv : ¬ p ∣ v) (hl : v < p ^ n)
    (h : (ratVal p (q - v * (p : ℚ) ^ s)).map (fun w => (Valu.finite (s + n)).le w) = some true) : ratTruncate p q (s + n) = some (.nonZero v s n) := by
  apply ratTruncate_eq
  refine ⟨hn, rfl, hv, hl, ?_⟩
  have := norm_le_of_ratVal h
  push_cast at this ⊢
  exact this

theorem cubicRefine {fac : Fac} (hfac : FacOk fac) : Padic.refine fac 2 [1, -1, 1, 2] ⟨1 / 2, 0⟩ 1 = some ⟨1 / 2, 1⟩ := by
  have hc : criticalPairs 2 [1, -1, 1, 2] = some [⟨3, 0, 1, 0, 0, 0⟩, ⟨3, 0, 2, 0, 0, 0⟩, ⟨3, 1, 2, 0, 0, 0⟩, cubicPair] := by decide +kernel
  have hn : BPair.normalization fac 2 [1, -1, 1, 2] cubicPair = some [4, -2, 1, 1] := by
    rw [BPair.normalization, isIrreducible_ok hfac irrCubic, show cubicPair.isCritical 2 [1, -1, 1, 2] = some true by decide +kernel]
    simp only [assertThat, if_true, Option.bind_eq_bind, Option.bind_some, cubicNorm]
  have hs : refine0Step 2 [4, -2, 1, 1] ⟨1, 1⟩ false = some (⟨1, 2⟩, true) := by
    have ht : ratTruncate 2 (1 - evalAtRat [4, -2, 1, 1] 1 / ratOps.polyEvaluate (ratOps.polyDerivative (([4, -2, 1, 1] : List Int).map fun c : Int => (c : ℚ))) 1)
        (1 + 1) = some (.nonZero 1 0 2) := by
      rw [show (1 + 1 : ℤ) = 0 + (2 : ℕ) by norm_num]
      exact ratTruncate_of (by decide) (by decide) (by decide) (by decide +kernel)
    rw [refine0Step]
    simp only [ht, Bool.false_eq_true, if_false, Option.bind_eq_bind, Option.bind_some]
    rw [show henselTest 2 (evalAtRat [4, -2, 1, 1] 1) (ratOps.polyEvaluate (ratOps.polyDerivative (([4, -2, 1, 1] : List Int).map fun c : Int => (c : ℚ))) 1) = some true
      by decide +kernel]
    decide +kernel
  have h0 : refine0 2 [4, -2, 1, 1] ⟨1, 1⟩ 2 = some ⟨1, 2⟩ := by
    rw [refine0, refine0Loop, hs]
    simp only [assertThat, Option.bind_eq_bind, Option.bind_some]
    rw [refine0Loop]
    simp
  rw [Padic.refine, show ratVal 2 (1 / 2) = some (.finite (-1)) by decide +kernel, hc]
  simp only [Option.bind_eq_bind, Option.bind_some, Valu.unwrapInt]
  rw [show List.find? (fun bp : BPair => (-1 : ℤ) == bp.bv) [⟨3, 0, 1, 0, 0, 0⟩, ⟨3, 0, 2, 0, 0, 0⟩, ⟨3, 1, 2, 0, 0, 0⟩, cubicPair] = some cubicPair by decide +kernel]
  simp only [Option.bind_some, hn]
  rw [show (1 / 2 : ℚ) * ((2 : ℕ) : ℚ) ^ (- -1 : ℤ) = 1 by norm_num, show (0 : ℤ) - -1 = 1 by norm_num, show (1 : ℤ) - -1 = 2 by norm_num, h0]
  simp
  
/-- With debug assertions the refinement of the root of `2x³ + x² - x + 1` stops at a failed assertion. -/
theorem cubicRefine_none {fac : Fac} (hfac : FacOk fac) : PRoot.refine true fac 2 1 ⟨[1, -1, 1, 2], ⟨1 / 2, 0⟩⟩ = none := by
  rw [PRoot.refine, if_pos (by decide)]
  simp only [zero_add, cubicRefine hfac, Option.bind_eq_bind, Option.bind_some, if_true]
  have ht : ratTruncate 2 (evalAtRat [1, -1, 1, 2] (1 / 2)) 1 = some (.nonZero 1 0 1) := by
    rw [show (1 : ℤ) = 0 + (1 : ℕ) by norm_num]
    exact ratTruncate_of (by decide) (by decide) (by decide) (by decide +kernel)
  simp only [liftCheck, ht, Option.bind_eq_bind, Option.bind_some]
  rw [show (assertThat (Trunc.rationalValue 2 (.nonZero 1 0 1) == 0)) = none by decide +kernel]
  rfl

/-- The sum with the negative of the centre of the ball cannot be refined. -/
theorem addRat_center_none {p : ℕ} [Fact p.Prime] (fac : Fac) (dbg : Bool) {r : PRoot} {x : ℚ_[p]} (h : r.Denotes x) {n : ℤ} (hn : r.approx.v < n) :
    ∃ s, r.addRat (-r.approx.a) = some s ∧ s.Denotes (x - (r.approx.a : ℚ_[p])) ∧ s.refine dbg fac p n = none := by
  obtain ⟨s, s1, s2, -, s3⟩ := PRoot.addRat_spec h (-r.approx.a)
  refine ⟨s, s1, by rw [sub_eq_add_neg]; simpa using s2, ?_⟩
  rw [PRoot.refine, s3, if_pos hn, add_neg_cancel, Padic.refine, ratVal_zero]
  rfl

/-- The negative of a number of odd degree never equals a root of a polynomial with positive leading coefficient. -/
theorem neg_odd_equal {p : ℕ} [Fact p.Prime] {fac : Fac} (dbg : Bool) {r s : PRoot} {x : ℚ_[p]} (h : r.Is x)
    (hodd : Odd (ipoly r.poly).natDegree) (hr : 0 < (ipoly r.poly).leadingCoeff) (hs : 0 < (ipoly s.poly).leadingCoeff) :
    r.neg.equal dbg fac p s = some false := by
  rw [PRoot.equal, if_pos]
  rw [Bool.not_eq_true', ← Bool.not_eq_true]
  intro e
  have := (intPoly_models.toSemi.equal _ _).1 e
  have h2 := (PRoot.neg_spec h).2
  rw [show ipoly r.neg.poly = ipoly s.poly from this, hodd.neg_one_pow] at h2
  omega

/-- The derivative at an integral number is integral. -/
theorem deriv_integral {p : ℕ} [Fact p.Prime] (f : List Int) {x : ℚ_[p]} (hx : ‖x‖ ≤ 1) : ‖(derivative (pv p f)).eval x‖ ≤ 1 := by
  have := (coe_aeval (derivative (ipoly f)) (⟨x, hx⟩ : ℤ_[p]))
  rw [pv, derivative_map, ← this]
  exact PadicInt.norm_le_one _

/-- A root is not a rational number. -/
theorem irr_no_rat {p : ℕ} [Fact p.Prime] {f : List Int} (hi : Irreducible (polyVal (id : Int → Int) f)) (hd : 2 ≤ (polyVal (id : Int → Int) f).natDegree)
    (q : ℚ) : (pv p f).eval (q : ℚ_[p]) ≠ 0 := by
  intro h1
  rw [← cast_eval, Rat.cast_eq_zero] at h1
  have h2 : Irreducible ((polyVal (id : Int → Int) f).map (Int.castRingHom ℚ)) :=
    (IsPrimitive.Int.irreducible_iff_irreducible_map_cast (hi.isPrimitive (by omega))).1 hi
  have h3 : _ = 1 := natDegree_eq_of_degree_eq_some (degree_eq_one_of_irreducible_of_root h2 h1)
  rw [natDegree_map_eq_of_injective (RingHom.injective_int _)] at h3
  omega

theorem PRoot.Is.irrational {p : ℕ} [Fact p.Prime] {r : PRoot} {x : ℚ_[p]} (h : r.Is x) (q : ℚ) : x ≠ (q : ℚ_[p]) := by
  rintro rfl
  exact irr_no_rat h.irreducible h.degree q h.isolates.root

end Verif.Padic
