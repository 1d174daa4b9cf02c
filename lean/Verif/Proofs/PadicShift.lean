import Verif.Proofs.PadicWrong
import Mathlib.RingTheory.Polynomial.Eisenstein.Criterion

/-!
# Refining the sum of a p-adic root and a rational number can give wrong digits

The 2-adic root `6 + 8 ...` of `x⁴ + 24x + 96`, plus one.
-/

namespace Verif.Padic

open Polynomial Verif.Rings Verif.RealRoots

local instance factTwoShift : Fact (Nat.Prime 2) := ⟨Nat.prime_two⟩

theorem quart_val (a b c : Int) : ipoly [a, b, 0, 0, c] = C c * X ^ 4 + C b * X + C a := by
  simp only [polyVal_cons, id]
  simp [polyVal]
  ring

theorem quart_deg (a b c : Int) (hc : c ≠ 0) : (ipoly [a, b, 0, 0, c]).natDegree = 4 := by
  rw [quart_val]
  compute_degree!

theorem quart_irr (a b c : Int) (ha : a % 9 ≠ 0) (ha3 : a % 3 = 0) (hb : b % 3 = 0) (hc : c % 3 ≠ 0) (hg : Int.gcd (Int.gcd a b) c = 1) :
    Irreducible (ipoly [a, b, 0, 0, c]) := by
  have hc0 : c ≠ 0 := by rintro rfl; simp at hc
  have hd := quart_deg a b c hc0
  have hdeg : (ipoly [a, b, 0, 0, c]).degree = 4 := by
    rw [degree_eq_natDegree (by intro e; rw [e] at hd; simp at hd), hd]
    rfl
  have hco : ∀ n, (ipoly [a, b, 0, 0, c]).coeff n = [a, b, 0, 0, c].getD n 0 := fun n => by
    rw [coeff_polyVal (id : Int → Int) 0 rfl]
    rfl
  refine irreducible_of_eisenstein_criterion (P := Ideal.span {(3 : ℤ)}) ?_ ?_ ?_ ?_ ?_ ?_
  · rw [Ideal.span_singleton_prime (by norm_num)]
    exact Int.prime_three
  · rw [leadingCoeff, hd, hco, Ideal.mem_span_singleton]
    simp only [List.getD_cons_succ, List.getD_cons_zero]
    omega
  · intro n hn
    rw [hdeg] at hn
    have hn : n < 4 := by exact_mod_cast hn
    rw [hco, Ideal.mem_span_singleton]
    interval_cases n <;> simp only [List.getD_cons_succ, List.getD_cons_zero] <;> omega
  · rw [hdeg]; norm_num
  · rw [hco, Ideal.span_singleton_pow, Ideal.mem_span_singleton]
    simp only [List.getD_cons_zero]
    omega
  · intro r hr
    rw [C_dvd_iff_dvd_coeff] at hr
    have h0 := hr 0
    have h1 := hr 1
    have h4 := hr 4
    rw [hco] at h0 h1 h4
    simp only [List.getD_cons_succ, List.getD_cons_zero] at h0 h1 h4
    have := Int.dvd_coe_gcd (Int.dvd_coe_gcd h0 h1) h4
    rw [hg] at this
    exact isUnit_of_dvd_one (by simpa using this)

/-- a polynomial whose only candidate modulo 2 is found at once -/
theorem isolate0_two {f : List Int} (hi : Irreducible (ipoly f)) (hd : 2 ≤ (ipoly f).natDegree)
    (h : ∀ α, isorefine 2 f (intGcd.polyDerivative f) α 1 1 = [⟨1, 1⟩]) : isolate0 2 f = some [⟨1, 1⟩] := by
  have hsep : ((ipoly f).map (algebraMap ℤ ℚ)).Separable :=
    ((IsPrimitive.Int.irreducible_iff_irreducible_map_cast (hi.isPrimitive (by omega))).1 hi).separable
  obtain ⟨bs, hbs, -⟩ := isolate0_covers (p := 2) f hd hsep
  rw [hbs]
  unfold isolate0 at hbs
  simp only [Option.bind_eq_bind, Option.bind_eq_some_iff] at hbs
  obtain ⟨-, -, s, -, -, -, n, hn, hbs⟩ := hbs
  rw [intGcd_models.toSemi.polyDegree_some f hi.ne_zero] at hn
  obtain rfl := Option.some.inj hn
  rw [if_neg (by change ¬ (ipoly f).natDegree = 0; omega)] at hbs
  simp only [Option.bind_eq_some_iff] at hbs
  obtain ⟨d, -, d', -, α, -, hbs⟩ := hbs
  rw [← hbs]
  change some (isorefine 2 f (intGcd.polyDerivative f) α 1 1 ++ []) = _
  rw [h, List.append_nil]

theorem iso_h1 (α : ℕ) : isorefine 2 [6, 3, 0, 0, 1] (intGcd.polyDerivative [6, 3, 0, 0, 1]) α 1 1 = [⟨1, 1⟩] := by
  rw [isorefine]
  rw [if_pos (by decide +kernel), isorefine1]
  rw [if_neg (by decide +kernel), if_pos (by decide +kernel)]
  simp

theorem iso_h2 (α : ℕ) : isorefine 2 [3, 3, 0, 0, 8] (intGcd.polyDerivative [3, 3, 0, 0, 8]) α 1 1 = [⟨1, 1⟩] := by
  rw [isorefine]
  rw [if_pos (by decide +kernel), isorefine1]
  rw [if_neg (by decide +kernel), if_pos (by decide +kernel)]
  simp

theorem irrQ : Irreducible (ipoly [96, 24, 0, 0, 1]) := quart_irr _ _ _ (by decide) (by decide) (by decide) (by decide) (by decide)
theorem degShift : (ipoly [96, 24, 0, 0, 1]).natDegree = 4 := quart_deg _ _ _ (by decide)

theorem norm1 : (List.range ((⟨4, 1, 4, 3, 0, 1⟩ : BPair).n + 1)).mapM (normCoeff 2 [96, 24, 0, 0, 1] ⟨4, 1, 4, 3, 0, 1⟩) = some [6, 3, 0, 0, 1] := by
  decide +kernel
theorem norm2 : (List.range ((⟨4, 0, 1, 5, 3, 2⟩ : BPair).n + 1)).mapM (normCoeff 2 [96, 24, 0, 0, 1] ⟨4, 0, 1, 5, 3, 2⟩) = some [3, 3, 0, 0, 8] := by
  decide +kernel

theorem isolateQ {fac : Fac} (hfac : FacOk fac) : isolate fac 2 [96, 24, 0, 0, 1] = some [⟨4, 3⟩, ⟨2, 2⟩] := by
  have h1 : isolate0 2 [6, 3, 0, 0, 1] = some [⟨1, 1⟩] :=
    isolate0_two (quart_irr _ _ _ (by decide) (by decide) (by decide) (by decide) (by decide)) (by rw [quart_deg _ _ _ (by decide)]; decide) iso_h1
  have h2 : isolate0 2 [3, 3, 0, 0, 8] = some [⟨1, 1⟩] :=
    isolate0_two (quart_irr _ _ _ (by decide) (by decide) (by decide) (by decide) (by decide)) (by rw [quart_deg _ _ _ (by decide)]; decide) iso_h2
  rw [isolate_eval (n := 2) (cps := [⟨4, 0, 1, 5, 3, 2⟩, ⟨4, 1, 4, 3, 0, 1⟩]) (l := [[⟨4, 3⟩], [⟨2, 2⟩]]) 2 irrQ (by rw [degShift]; decide)
    (by decide +kernel) (by decide +kernel)]
  · rfl
  · rw [show firstPairs [] [(⟨4, 0, 1, 5, 3, 2⟩ : BPair), ⟨4, 1, 4, 3, 0, 1⟩] = [⟨4, 0, 1, 5, 3, 2⟩, ⟨4, 1, 4, 3, 0, 1⟩] by decide +kernel,
      List.mapM_cons, List.mapM_cons, List.mapM_nil,
      pairBalls_eval hfac 2 irrQ (by decide +kernel) norm2 h2,
      pairBalls_eval hfac 2 irrQ (by decide +kernel) norm1 h1]
    decide +kernel

theorem exists_Q : ∃ x : ℚ_[2], PRoot.Is ⟨[96, 24, 0, 0, 1], ⟨2, 2⟩⟩ x := by
  obtain ⟨fac, hfac⟩ := exists_facOk
  have hd : 2 ≤ (ipoly [96, 24, 0, 0, 1]).natDegree := by rw [degShift]; decide
  obtain ⟨bs, h1, xs, h2, h3, h4⟩ := isolate_spec (p := 2) hfac [96, 24, 0, 0, 1] irrQ hd
  rw [isolateQ hfac] at h1
  obtain rfl := Option.some.inj h1
  obtain ⟨x, xs, hx, h5, rfl⟩ := List.forall₂_cons_left_iff.1 h2
  obtain ⟨y, ys, hy, h6, rfl⟩ := List.forall₂_cons_left_iff.1 h5
  exact ⟨y, by intro c hc; simp at hc; rw [← hc]; decide, irrQ, hd, hy.1, hy.2⟩

/-- the root is not 2 modulo 8 -/
theorem Q_digit {x : ℚ_[2]} (hx : (pv 2 [96, 24, 0, 0, 1]).eval x = 0) (h : ‖x - 2‖ ≤ (2 : ℝ) ^ (-3 : ℤ)) : False := by
  have hv : x ^ 4 + 24 * x + 96 = 0 := by
    rw [pv, quart_val] at hx
    simpa using hx
  have h8 : ‖(8 : ℚ_[2])‖ = (2 : ℝ) ^ (-3 : ℤ) := by
    rw [show (8 : ℚ_[2]) = (2 : ℚ_[2]) ^ 3 by norm_num, norm_pow]
    have := _root_.Padic.norm_p (p := 2)
    push_cast at this
    rw [this]
    norm_num
  have h80 : (8 : ℚ_[2]) ≠ 0 := by norm_num
  have ht : ‖(x - 2) / 8‖ ≤ 1 := by
    rw [norm_div, h8]
    exact div_le_one_of_le₀ h (by positivity)
  obtain ⟨t, htx⟩ : ∃ t : ℤ_[2], (t : ℚ_[2]) = (x - 2) / 8 := ⟨⟨_, ht⟩, rfl⟩
  have hx' : x = 2 + 8 * (t : ℚ_[2]) := by
    rw [htx]
    field_simp
    ring
  have key : ((2 + 8 * t) ^ 4 + 24 * (2 + 8 * t) + 96 : ℤ_[2]) = 0 := by
    have : (((2 + 8 * t) ^ 4 + 24 * (2 + 8 * t) + 96 : ℤ_[2]) : ℚ_[2]) = 0 := by
      simp only [PadicInt.coe_add, PadicInt.coe_mul, PadicInt.coe_pow]
      rw [show ((2 : ℤ_[2]) : ℚ_[2]) = 2 from rfl, show ((8 : ℤ_[2]) : ℚ_[2]) = 8 from rfl, show ((24 : ℤ_[2]) : ℚ_[2]) = 24 from rfl,
        show ((96 : ℤ_[2]) : ℚ_[2]) = 96 from rfl, ← hx', hv]
    exact Subtype.coe_injective this
  have key2 : (32 : ℤ_[2]) * (5 + 2 * (3 * t + 4 * t + 24 * t ^ 2 + 64 * t ^ 3 + 64 * t ^ 4)) = 0 := by
    linear_combination key
  have key3 : (5 : ℤ_[2]) = 2 * (-(3 * t + 4 * t + 24 * t ^ 2 + 64 * t ^ 3 + 64 * t ^ 4)) := by
    rcases mul_eq_zero.1 key2 with h | h
    · exact absurd h (by norm_num)
    · linear_combination h
  have h2 : ‖(5 : ℤ_[2])‖ < 1 := by
    rw [key3, norm_mul]
    have := PadicInt.norm_p (p := 2)
    push_cast at this
    rw [this]
    have := PadicInt.norm_le_one (-(3 * t + 4 * t + 24 * t ^ 2 + 64 * t ^ 3 + 64 * t ^ 4))
    nlinarith
  have h5 := (PadicInt.norm_int_lt_one_iff_dvd (p := 2) 5).1 (by exact_mod_cast h2)
  revert h5
  decide

theorem irrQ' : Irreducible (ipoly [73, 20, 6, -4, 1]) := by
  have h := (MulEquiv.irreducible_iff (Polynomial.taylorEquiv (-1 : ℤ))).2 irrQ
  have e : Polynomial.taylorEquiv (-1 : ℤ) (ipoly [96, 24, 0, 0, 1]) = ipoly [73, 20, 6, -4, 1] := by
    change taylor (-1 : ℤ) (ipoly [96, 24, 0, 0, 1]) = _
    rw [taylor_apply]
    simp only [polyVal_cons, id]
    simp [polyVal]
    ring
  rwa [e] at h

/-- the sum with one -/
theorem addQ {x : ℚ_[2]} (hx : PRoot.Is ⟨[96, 24, 0, 0, 1], ⟨2, 2⟩⟩ x) :
    PRoot.addRat ⟨[96, 24, 0, 0, 1], ⟨2, 2⟩⟩ 1 = some ⟨[73, 20, 6, -4, 1], ⟨3, 2⟩⟩ ∧ PRoot.Denotes ⟨[73, 20, 6, -4, 1], ⟨3, 2⟩⟩ (x + 1) := by
  obtain ⟨⟨g, b⟩, s1, s2, s3, s4⟩ := PRoot.addRat_spec (p := 2) ⟨hx.reduced, hx.irreducible, hx.degree, hx.isolates⟩ 1
  have hd : (ipoly [73, 20, 6, -4, 1]).natDegree = 4 := by
    have e : ipoly [73, 20, 6, -4, 1] = X ^ 4 - 4 * X ^ 3 + 6 * X ^ 2 + 20 * X + 73 := by
      simp only [polyVal_cons, id]
      simp [polyVal]
      ring
    rw [e]
    compute_degree!
  have hroot : (pv 2 [73, 20, 6, -4, 1]).eval (x + 1) = 0 := by
    have h := hx.isolates.root
    rw [pv] at h ⊢
    simp only [polyVal_cons, id] at h ⊢
    simp [polyVal] at h ⊢
    linear_combination h
  obtain rfl : b = ⟨3, 2⟩ := by
    have : b = ⟨2 + 1, 2⟩ := s4
    rw [this]
    norm_num
  obtain ⟨a1, a2, a3, a4⟩ := s2
  obtain rfl : g = [73, 20, 6, -4, 1] := by
    have hred : PolyReduced (id : Int → Int) [73, 20, 6, -4, 1] := by intro c hc; simp at hc; rw [← hc]; decide
    have hroot' : (pv 2 [73, 20, 6, -4, 1]).eval (x + ((1 : ℚ) : ℚ_[2])) = 0 := by rw [Rat.cast_one]; exact hroot
    have hpos : 0 < (ipoly [96, 24, 0, 0, 1]).leadingCoeff := by
      rw [leadingCoeff, degShift, coeff_polyVal (id : Int → Int) 0 rfl]
      decide
    have hpos' : 0 < (ipoly [73, 20, 6, -4, 1]).leadingCoeff := by
      rw [leadingCoeff, hd, coeff_polyVal (id : Int → Int) 0 rfl]
      decide
    exact poly_eq_of_val a1 hred (eq_of_associated (eq_of_common_root a1 hred a2 irrQ' a3 (by rw [hd]; decide) a4.root hroot') (s3 hpos) hpos') a2.ne_zero
  rw [Rat.cast_one] at a4
  exact ⟨s1, a1, a2, a3, a4⟩

theorem refineQ {fac : Fac} (hfac : FacOk fac) :
    Padic.refine fac 2 [73, 20, 6, -4, 1] ⟨3, 2⟩ 3 = some ⟨3, 3⟩ := by
  have e3 : refine0Impl 2 [73, 20, 6, -4, 1] ⟨3, 4⟩ 3 = some (some ⟨3, 4⟩) := by
    rw [refine0Impl, show ratVal 2 (evalAtRat [73, 20, 6, -4, 1] 3) = some (.finite 5) by decide +kernel]
    rfl
  have e2 : refine0Impl 2 [73, 20, 6, -4, 1] ⟨3, 3⟩ 3 = some (some ⟨3, 4⟩) := by
    rw [refine0Impl, show ratVal 2 (evalAtRat [73, 20, 6, -4, 1] 3) = some (.finite 5) by decide +kernel]
    change refine0Search 2 [73, 20, 6, -4, 1] ⟨3, 3⟩ 3 0 = _
    rw [refine0Search, if_pos (by decide)]
    simp only [Nat.cast_zero, zero_mul, add_zero]
    rw [show (3 : ℤ) + 1 = 4 from rfl, e3]
    rfl
  have e1 : refine0Impl 2 [73, 20, 6, -4, 1] ⟨3, 2⟩ 3 = some (some ⟨3, 4⟩) := by
    rw [refine0Impl, show ratVal 2 (evalAtRat [73, 20, 6, -4, 1] 3) = some (.finite 5) by decide +kernel]
    change refine0Search 2 [73, 20, 6, -4, 1] ⟨3, 2⟩ 3 0 = _
    rw [refine0Search, if_pos (by decide)]
    simp only [Nat.cast_zero, zero_mul, add_zero]
    rw [show (2 : ℤ) + 1 = 3 from rfl, e2]
    rfl
  have hs : refine0Step 2 [73, 20, 6, -4, 1] ⟨3, 2⟩ false = some (⟨3, 4⟩, false) := by
    rw [refine0Step]
    simp only [Bool.false_eq_true, if_false]
    rw [show henselTest 2 (evalAtRat [73, 20, 6, -4, 1] 3)
      (ratOps.polyEvaluate (ratOps.polyDerivative (([73, 20, 6, -4, 1] : List Int).map fun c : Int => (c : ℚ))) 3) = some false by decide +kernel]
    simp only [Option.bind_eq_bind, Option.bind_some, Bool.false_eq_true, if_false]
    rw [show (2 : ℤ) + 1 = 3 from rfl, e1]
    rfl
  have h0 : refine0 2 [73, 20, 6, -4, 1] ⟨3, 2⟩ 3 = some ⟨3, 4⟩ := by
    rw [refine0, refine0Loop, hs]
    simp only [assertThat, Option.bind_eq_bind, Option.bind_some]
    rw [refine0Loop]
    simp
  have hc : ∃ cps bp, criticalPairs 2 [73, 20, 6, -4, 1] = some cps ∧ List.find? (fun bp : BPair => (0 : ℤ) == bp.bv) cps = some bp ∧
      bp.isCritical 2 [73, 20, 6, -4, 1] = some true ∧ (List.range (bp.n + 1)).mapM (normCoeff 2 [73, 20, 6, -4, 1] bp) = some [73, 20, 6, -4, 1] := by
    refine ⟨[⟨4, 0, 4, 0, 0, 0⟩], ⟨4, 0, 4, 0, 0, 0⟩, ?_⟩
    decide +kernel
  obtain ⟨cps, bp, c1, c2, c3, c4⟩ := hc
  rw [Padic.refine, show ratVal 2 3 = some (.finite 0) by decide +kernel, c1]
  simp only [Option.bind_eq_bind, Option.bind_some, Valu.unwrapInt, c2]
  rw [BPair.normalization, isIrreducible_ok hfac irrQ', c3]
  simp only [assertThat, if_true, Option.bind_eq_bind, Option.bind_some, c4]
  rw [show (3 : ℚ) * ((2 : ℕ) : ℚ) ^ (-0 : ℤ) = 3 by norm_num, show (2 : ℤ) - 0 = 2 by norm_num, show (3 : ℤ) - 0 = 3 by norm_num, h0]
  simp

theorem prefineQ {fac : Fac} (hfac : FacOk fac) (dbg : Bool) :
    PRoot.refine dbg fac 2 3 ⟨[73, 20, 6, -4, 1], ⟨3, 2⟩⟩ = some ⟨[73, 20, 6, -4, 1], ⟨3, 3⟩⟩ := by
  rw [PRoot.refine, if_pos (by decide)]
  simp only []
  rw [show (2 : ℤ) + 1 = 3 from rfl, refineQ hfac]
  have hl : liftCheck 2 ⟨[73, 20, 6, -4, 1], ⟨3, 3⟩⟩ = some () := by
    unfold liftCheck
    rw [show ratTruncate 2 (evalAtRat [73, 20, 6, -4, 1] 3) 3 = some .zero by decide +kernel]
    decide +kernel
  cases dbg
  · simp only [Option.bind_eq_bind, Option.bind_some, Bool.false_eq_true, if_false]
    rw [PRoot.refine, if_neg (by decide)]
  · simp only [Option.bind_eq_bind, Option.bind_some, if_true, hl]
    rw [PRoot.refine, if_neg (by decide)]

end Verif.Padic
