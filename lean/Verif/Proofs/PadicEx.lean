import Verif.Proofs.PadicAffine
import Verif.Proofs.RealAlgOk
import Mathlib.Tactic.NormNum.Prime
import Mathlib.RingTheory.Polynomial.RationalRoot

/-!
# Concrete p-adic numbers
-/

namespace Verif.Padic

open Polynomial Verif.Rings Verif.RealRoots

local instance fact2 : Fact (Nat.Prime 2) := ⟨Nat.prime_two⟩

theorem quad_val (a b c : Int) : ipoly [a, b, c] = C c * X ^ 2 + C b * X + C a := by
  simp only [polyVal_cons, id]
  simp [polyVal]
  ring

theorem cubic_val (a b c d : Int) : ipoly [a, b, c, d] = C d * X ^ 3 + C c * X ^ 2 + C b * X + C a := by
  simp only [polyVal_cons, id]
  simp [polyVal]
  ring

theorem map_intCubic (a b c d : Int) : (C d * X ^ 3 + C c * X ^ 2 + C b * X + C a : ℤ[X]).map (algebraMap ℤ ℚ) =
    C (d : ℚ) * X ^ 3 + C (c : ℚ) * X ^ 2 + C (b : ℚ) * X + C (a : ℚ) := by
  simp only [Polynomial.map_add, Polynomial.map_mul, Polynomial.map_pow, map_X, Polynomial.map_C]
  rfl

/-- A primitive cubic polynomial without rational root is irreducible. -/
theorem cubic_irr {a b c d : Int} (hd : d ≠ 0) (hg : Int.gcd a c = 1) (h : ∀ y : Int, y ^ 3 + c * y ^ 2 + d * b * y + d ^ 2 * a ≠ 0) :
    Irreducible (ipoly [a, b, c, d]) := by
  have hdeg : (ipoly [a, b, c, d]).natDegree = 3 := by rw [cubic_val]; exact natDegree_cubic hd
  have hprim : (ipoly [a, b, c, d]).IsPrimitive := by
    intro r hr
    rw [C_dvd_iff_dvd_coeff] at hr
    have h0 := hr 0
    have h1 := hr 2
    rw [coeff_polyVal (id : Int → Int) 0 rfl] at h0 h1
    have h2 := Int.dvd_coe_gcd h0 h1
    simp only [List.getD_cons_zero, List.getD_cons_succ, id, hg] at h2
    exact isUnit_of_dvd_one (by simpa using h2)
  rw [IsPrimitive.Int.irreducible_iff_irreducible_map_cast hprim]
  have hdq : ((ipoly [a, b, c, d]).map (Int.castRingHom ℚ)).natDegree = 3 := by rw [natDegree_map_eq_of_injective (RingHom.injective_int _), hdeg]
  have h0 : (ipoly [a, b, c, d]).map (Int.castRingHom ℚ) ≠ 0 := by intro e; rw [e] at hdq; simp at hdq
  rw [irreducible_iff_roots_eq_zero_of_degree_le_three (by omega) (by omega), Multiset.eq_zero_iff_forall_notMem]
  intro x hx
  rw [mem_roots h0, IsRoot, cubic_val] at hx
  simp at hx
  have key : ((d : ℚ) * x) ^ 3 + c * ((d : ℚ) * x) ^ 2 + d * b * ((d : ℚ) * x) + d ^ 2 * a = 0 := by
    have : ((d : ℚ) * x) ^ 3 + c * ((d : ℚ) * x) ^ 2 + d * b * ((d : ℚ) * x) + d ^ 2 * a = (d : ℚ) ^ 2 * (d * x ^ 3 + c * x ^ 2 + b * x + a) := by ring
    rw [this, hx, mul_zero]
  have hint : IsIntegral ℤ ((d : ℚ) * x) := by
    refine ⟨C 1 * X ^ 3 + C c * X ^ 2 + C (d * b) * X + C (d ^ 2 * a), ?_, ?_⟩
    · rw [Monic, leadingCoeff_cubic one_ne_zero]
    · rw [← eval_map, map_intCubic]
      simp only [eval_add, eval_mul, eval_pow, eval_X, eval_C]
      push_cast
      linear_combination key
  obtain ⟨y, hy⟩ := IsIntegrallyClosed.isIntegral_iff.1 hint
  apply h y
  rw [← hy] at key
  have : ((y ^ 3 + c * y ^ 2 + d * b * y + d ^ 2 * a : ℤ) : ℚ) = 0 := by push_cast; simpa using key
  exact_mod_cast this

theorem isolate0_eval {f : List Int} {n : ℕ} {d : ℤ} {α : ℕ} {bs : List Ball} (p : ℕ) (hz : intGcd.toSemiRingOps.poly.isZero f = false)
    (hs : intGcd.polyIsSquarefree f = some true) (hn : intGcd.polyDegree f = some (n + 1)) (hd : intGcd.polyDiscriminant f = some (some d))
    (hα : (intVal p d).unwrapNat = some α)
    (h : ((List.range' 1 (p - 1)).flatMap fun i => isorefine p f (intGcd.polyDerivative f) α i 1) = bs) : isolate0 p f = some bs := by
  rw [isolate0, hz, hs, hn]
  simp only [assertThat, Bool.not_false, if_true, Option.bind_eq_bind, Option.bind_some, hd, hα, h]
  simp

theorem pairBalls_eval {fac : Fac} (hfac : FacOk fac) {f : List Int} {bp : BPair} {g : List Int} {bs : List Ball} (p : ℕ)
    (hirr : Irreducible (ipoly f)) (hbc : bp.isCritical p f = some true) (hg : (List.range (bp.n + 1)).mapM (normCoeff p f bp) = some g)
    (hb : isolate0 p g = some bs) : pairBalls fac p f bp = some (bs.map fun b => ⟨(p : ℚ) ^ bp.bv * b.a, b.v + bp.bv⟩) := by
  rw [pairBalls, BPair.normalization, isIrreducible_ok hfac hirr, hbc]
  simp only [assertThat, if_true, Option.bind_eq_bind, Option.bind_some, hg, hb]

theorem isolate_eval {fac : Fac} {f : List Int} {n : ℕ} {cps : List BPair} {l : List (List Ball)} (p : ℕ)
    (hirr : Irreducible (ipoly f)) (hd2 : 2 ≤ (ipoly f).natDegree)
    (hn : intGcd.polyDegree f = some (n + 2)) (hc : criticalPairs p f = some cps) (hl : (firstPairs [] cps).mapM (pairBalls fac p f) = some l) :
    isolate fac p f = some l.flatten := by
  have hz : intGcd.toSemiRingOps.poly.isZero f = false := by
    rw [← Bool.not_eq_true, intGcd_models.toSemi.poly.isZero]; exact hirr.ne_zero
  rw [isolate, hz, squarefree_ok hirr hd2, hn, hc]
  simp only [assertThat, Bool.not_false, if_true, Option.bind_eq_bind, Option.bind_some, hl, decide_eq_true_eq]
  rw [if_pos (by omega)]
  rfl

theorem disc2 (a b c : Int) (hc : c ≠ 0) : intGcd.polyDiscriminant [a, b, c] = some (some (b ^ 2 - 4 * c * a)) := by
  have hdeg : (ipoly [a, b, c]).natDegree = 2 := by rw [quad_val]; exact natDegree_quadratic hc
  obtain ⟨d, d1, d2⟩ := polyDiscriminant_spec intGcd_models.toDomain [a, b, c] (by change 0 < (ipoly [a, b, c]).natDegree; omega)
    (Or.inl (natDegree_derivative _))
  rw [d1]
  simp only [id] at d2
  rw [d2, discr_of_degree_eq_two (by rw [degree_eq_natDegree (by intro e; rw [e] at hdeg; simp at hdeg)]; exact_mod_cast congrArg Nat.cast hdeg)]
  rw [coeff_polyVal (id : Int → Int) 0 rfl, coeff_polyVal (id : Int → Int) 0 rfl, coeff_polyVal (id : Int → Int) 0 rfl]
  simp
  ring

theorem disc3 (a b c d : Int) (hd : d ≠ 0) : intGcd.polyDiscriminant [a, b, c, d] =
    some (some (c ^ 2 * b ^ 2 - 4 * d * b ^ 3 - 4 * c ^ 3 * a - 27 * d ^ 2 * a ^ 2 + 18 * d * c * b * a)) := by
  have hdeg : (ipoly [a, b, c, d]).natDegree = 3 := by rw [cubic_val]; exact natDegree_cubic hd
  obtain ⟨e, d1, d2⟩ := polyDiscriminant_spec intGcd_models.toDomain [a, b, c, d] (by change 0 < (ipoly [a, b, c, d]).natDegree; omega)
    (Or.inl (natDegree_derivative _))
  rw [d1]
  simp only [id] at d2
  rw [d2, discr_of_degree_eq_three (by rw [degree_eq_natDegree (by intro e; rw [e] at hdeg; simp at hdeg)]; exact_mod_cast congrArg Nat.cast hdeg)]
  rw [coeff_polyVal (id : Int → Int) 0 rfl, coeff_polyVal (id : Int → Int) 0 rfl, coeff_polyVal (id : Int → Int) 0 rfl, coeff_polyVal (id : Int → Int) 0 rfl]
  simp

theorem no_sqrt17 (y : Int) : y ^ 2 + 0 * y + -17 ≠ 0 := by
  intro h
  have h1 : y ^ 2 = 17 := by linarith
  have h2 : y < 5 := by nlinarith
  have h3 : -5 < y := by nlinarith
  interval_cases y <;> simp at h1

theorem irr17 : Irreducible (ipoly [-17, 0, 1]) := (quad_ok no_sqrt17).irreducible
theorem deg17 : 2 ≤ (ipoly [-17, 0, 1]).natDegree := by rw [quad_val]; exact (natDegree_quadratic one_ne_zero).ge

/-- The square roots of 17 in the 2-adic numbers. -/
theorem isolate17 {fac : Fac} (hfac : FacOk fac) : isolate fac 2 [-17, 0, 1] = some [⟨1, 2⟩, ⟨3, 2⟩] := by
  have h0 : isolate0 2 [-17, 0, 1] = some [⟨1, 2⟩, ⟨3, 2⟩] := by
    refine isolate0_eval (n := 1) (d := 68) (α := 2) 2 (by decide +kernel) (squarefree_ok irr17 deg17) (by decide +kernel) ?_ (by decide +kernel) (by decide +kernel)
    rw [disc2 _ _ _ one_ne_zero]; rfl
  rw [isolate_eval (n := 0) (cps := [⟨2, 0, 2, 0, 0, 0⟩]) (l := [[⟨1, 2⟩, ⟨3, 2⟩]]) 2 irr17 deg17 (by decide +kernel) (by decide +kernel)]
  · rfl
  · rw [show firstPairs [] [(⟨2, 0, 2, 0, 0, 0⟩ : BPair)] = [⟨2, 0, 2, 0, 0, 0⟩] by decide +kernel, List.mapM_cons, List.mapM_nil,
      pairBalls_eval hfac 2 irr17 (by decide +kernel) (by decide +kernel) h0]
    decide +kernel

theorem cubic_no (y : Int) : y ^ 3 + 1 * y ^ 2 + 2 * -1 * y + 2 ^ 2 * 1 ≠ 0 := by
  intro h
  have : ((y ^ 3 + 1 * y ^ 2 + 2 * -1 * y + 2 ^ 2 * 1 : ℤ) : ZMod 5) = 0 := by rw [h]; simp
  push_cast at this
  generalize (y : ZMod 5) = z at this
  revert z; decide

theorem irrCubic : Irreducible (ipoly [1, -1, 1, 2]) := cubic_irr (by decide) (by decide) cubic_no
theorem degCubic : (ipoly [1, -1, 1, 2]).natDegree = 3 := by rw [cubic_val]; exact natDegree_cubic (by decide)
theorem irrCubic' : Irreducible (ipoly [4, -2, 1, 1]) := cubic_irr (by decide) (by decide) fun y h => cubic_no y (by linarith)
theorem degCubic' : (ipoly [4, -2, 1, 1]).natDegree = 3 := by rw [cubic_val]; exact natDegree_cubic (by decide)

def cubicPair : BPair := ⟨3, 2, 3, 0, 1, -1⟩

theorem cubicNorm : (List.range (cubicPair.n + 1)).mapM (normCoeff 2 [1, -1, 1, 2] cubicPair) = some [4, -2, 1, 1] := by decide +kernel

theorem isolateCubic {fac : Fac} (hfac : FacOk fac) : isolate fac 2 [1, -1, 1, 2] = some [⟨1 / 2, 0⟩] := by
  have h2 : 2 ≤ (ipoly [1, -1, 1, 2]).natDegree := by rw [degCubic]; decide
  have h0 : isolate0 2 [1, -1, 1, 2] = some [] := by
    refine isolate0_eval (n := 2) (d := -139) (α := 0) 2 (by decide +kernel) (squarefree_ok irrCubic h2) (by decide +kernel) ?_ (by decide +kernel) (by decide +kernel)
    rw [disc3 _ _ _ _ (by decide)]; rfl
  have h1 : isolate0 2 [4, -2, 1, 1] = some [⟨1, 1⟩] := by
    refine isolate0_eval (n := 2) (d := -556) (α := 2) 2 (by decide +kernel) (squarefree_ok irrCubic' (by rw [degCubic']; decide)) (by decide +kernel) ?_
      (by decide +kernel) (by decide +kernel)
    rw [disc3 _ _ _ _ one_ne_zero]; rfl
  rw [isolate_eval (n := 1) (cps := [⟨3, 0, 1, 0, 0, 0⟩, ⟨3, 0, 2, 0, 0, 0⟩, ⟨3, 1, 2, 0, 0, 0⟩, cubicPair]) (l := [[], [⟨1 / 2, 0⟩]]) 2 irrCubic h2
    (by decide +kernel) (by decide +kernel)]
  · rfl
  · rw [show firstPairs [] [(⟨3, 0, 1, 0, 0, 0⟩ : BPair), ⟨3, 0, 2, 0, 0, 0⟩, ⟨3, 1, 2, 0, 0, 0⟩, cubicPair] = [⟨3, 0, 1, 0, 0, 0⟩, cubicPair] by decide +kernel,
      List.mapM_cons, List.mapM_cons, List.mapM_nil,
      pairBalls_eval hfac 2 irrCubic (by decide +kernel) (by decide +kernel) h0, pairBalls_eval hfac 2 irrCubic (by decide +kernel) cubicNorm h1]
    decide +kernel

/-- The square root of 17 that is 1 modulo 4. -/
theorem exists_sqrt17 : ∃ x : ℚ_[2], PRoot.Is ⟨[-17, 0, 1], ⟨1, 2⟩⟩ x ∧ PRoot.Is ⟨[-17, 0, 1], ⟨3, 2⟩⟩ (-x) ∧ x ^ 2 = 17 := by
  obtain ⟨fac, hfac⟩ := exists_facOk
  obtain ⟨bs, h1, xs, h2, h3, h4⟩ := isolate_spec (p := 2) hfac [-17, 0, 1] irr17 deg17
  rw [isolate17 hfac] at h1
  obtain rfl := Option.some.inj h1
  obtain ⟨x, xs', hx, h5, rfl⟩ := List.forall₂_cons_left_iff.1 h2
  obtain ⟨y, xs, hy, h6, rfl⟩ := List.forall₂_cons_left_iff.1 h5
  rw [List.forall₂_nil_left_iff] at h6
  subst h6
  have hroot : ∀ z : ℚ_[2], (pv 2 [-17, 0, 1]).eval z = z ^ 2 - 17 := by
    intro z; rw [pv, quad_val]; simp; ring
  have hx2 : x ^ 2 = 17 := by have := hx.1.root; rw [hroot] at this; linear_combination this
  have hneg : -x ∈ [x, y] := (h4 _).2 (by change (pv 2 [-17, 0, 1]).eval (-x) = 0; rw [hroot]; linear_combination hx2)
  have hyx : y = -x := by
    rcases List.mem_cons.1 hneg with e | e
    · exfalso
      have : x = 0 := by linear_combination (-1 / 2 : ℚ_[2]) * e
      rw [this] at hx2; norm_num at hx2
    · exact (List.mem_singleton.1 e).symm
  subst hyx
  exact ⟨x, ⟨(quad_ok no_sqrt17).reduced, irr17, deg17, hx.1, hx.2⟩, ⟨(quad_ok no_sqrt17).reduced, irr17, deg17, hy.1, hy.2⟩, hx2⟩

/-- The 2-adic root of `2x³ + x² - x + 1`. -/
theorem exists_cubic : ∃ x : ℚ_[2], PRoot.Is ⟨[1, -1, 1, 2], ⟨1 / 2, 0⟩⟩ x := by
  obtain ⟨fac, hfac⟩ := exists_facOk
  have hd : 2 ≤ (ipoly [1, -1, 1, 2]).natDegree := by rw [degCubic]; decide
  obtain ⟨bs, h1, xs, h2, h3, h4⟩ := isolate_spec (p := 2) hfac [1, -1, 1, 2] irrCubic hd
  rw [isolateCubic hfac] at h1
  obtain rfl := Option.some.inj h1
  obtain ⟨x, xs, hx, h2, rfl⟩ := List.forall₂_cons_left_iff.1 h2
  exact ⟨x, by intro c hc; simp at hc; rw [← hc]; decide, irrCubic, hd, hx.1, hx.2⟩

end Verif.Padic
