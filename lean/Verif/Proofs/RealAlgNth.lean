import Verif.Proofs.RealAlgGet
import Mathlib.Analysis.SpecialFunctions.Pow.Real

/-!
# Roots of real algebraic numbers
-/

namespace Verif.RealRoots

open Polynomial Verif.Rings

theorem rv_cons (c : Int) (l : List Int) : rv (c :: l) = C (c : ℝ) + X * rv l := by
  simp [rv, polyVal]

theorem rv_nil : rv [] = 0 := by simp [rv, polyVal]

theorem rv_zeros (k : Nat) (l : List Int) : rv (List.replicate k 0 ++ l) = X ^ k * rv l := by
  induction k with
  | zero => simp
  | succ k ih => rw [List.replicate_succ, List.cons_append, rv_cons, ih]; simp; ring

theorem rv_spread {n : Nat} (hn : 0 < n) (l : List Int) : rv (spread n l) = (rv l).comp (X ^ n) := by
  induction l using spread.induct with
  | case1 => simp [spread, rv_nil]
  | case2 c => simp [spread, rv_cons, rv_nil]
  | case3 c l hl ih =>
    obtain ⟨d, l', rfl⟩ := List.exists_cons_of_ne_nil (fun e => hl (by simpa using e))
    rw [spread, rv_cons, rv_zeros, ih, rv_cons c]
    · rw [add_comp, C_comp, mul_comp, X_comp, ← mul_assoc, ← pow_succ', Nat.sub_add_cancel hn]
    · exact hl

/-- The number of a real algebraic number is a root of the polynomial that `nth_root` uses. -/
theorem rootPoly_spec {x : RealAlg} {r : ℝ} (h : x.Is r) : rv x.rootPoly ≠ 0 ∧ (rv x.rootPoly).eval r = 0 ∧
    (∀ q : ℚ, (rv x.rootPoly).eval (q : ℝ) = 0 → x = .rat q) := by
  cases x with
  | rat a =>
    obtain rfl : r = a := h
    have hd : (ratDenominator a : ℝ) ≠ 0 := by
      have : (ratDenominator a : ℤ) ≠ 0 := by simp [ratDenominator]
      exact_mod_cast this
    have hn : (ratNumerator a : ℝ) = a * ratDenominator a := by
      rw [ratNumerator_eq]
      have := Rat.num_div_den a
      have h2 : (a : ℚ) * a.den = a.num := Rat.mul_den_eq_num a
      have h3 : ((a * a.den : ℚ) : ℝ) = ((a.num : ℚ) : ℝ) := by rw [h2]
      push_cast at h3
      rw [← h3]
      simp [ratDenominator]
    have e : ∀ y : ℝ, (rv (RealAlg.rat a).rootPoly).eval y = ratDenominator a * (y - a) := by
      intro y
      simp only [RealAlg.rootPoly, rv_cons, rv_nil]
      simp only [eval_add, eval_mul, eval_C, eval_X, eval_zero]
      push_cast
      rw [hn]; ring
    refine ⟨fun h0 => ?_, by rw [e]; ring, fun q hq => ?_⟩
    · have := e (a + 1)
      rw [h0] at this
      simp at this
      exact hd (by exact_mod_cast this.symm)
    · rw [e, mul_eq_zero] at hq
      have := sub_eq_zero.1 (hq.resolve_left hd)
      have : q = a := by exact_mod_cast this
      rw [this]
  | real x =>
    have hx : x.Is r := h
    exact ⟨rv_ne_zero.2 hx.irreducible.ne_zero, hx.root, fun q hq => absurd hq (hx.irrational q)⟩

/-- The search, from an index downwards. -/
theorem nthSearch_spec {s : ℚ → ℚ → ℚ} (hs : SimplestOk s) {fac : Fac} (hf : FacOk fac) {R : SqRoots} {rs : List ℝ} (h : R.All rs)
    (hp : (ipoly R.poly).IsPrimitive) (hsq : Squarefree (ipoly R.poly)) {x : RealAlg} {n : Nat} (hn : 0 < n) {ρ : ℝ} (hρ : 0 < ρ)
    (hx : x.Is (ρ ^ n)) (hrat : ∀ q : ℚ, (rv R.poly).eval (q : ℝ) = 0 → x = .rat (q ^ n)) (m : Nat) (hm : m ≤ R.ivs.length)
    (hmem : ρ ∈ rs.take m) :
    ∃ z, nthSearch s fac R x n ((List.range m).zip (R.ivs.take m)).reverse = some z ∧ z.Is ρ := by
  have hl := h.isolates.isolates.length_eq
  induction m with
  | zero => simp at hmem
  | succ m ih =>
    have hi : m < R.ivs.length := hm
    have hi' : m < rs.length := hl ▸ hi
    have hI := h.isolates.get hi
    obtain ⟨g, g1, g2⟩ := getRealRoot_spec hf h hp hsq hi
    have ht : R.ivs.take (m + 1) = R.ivs.take m ++ [R.ivs[m]] := by rw [List.take_succ_eq_append_getElem hi]
    rw [List.take_succ_eq_append_getElem hi'] at hmem
    rw [List.range_succ, ht, List.zip_append (by simp; omega), List.reverse_append]
    simp only [List.zip_cons_cons, List.zip_nil_right, List.reverse_cons, List.reverse_nil, List.nil_append, List.singleton_append]
    have hmem' : ρ ≠ rs[m] → ρ ∈ rs.take m := by
      intro hne
      rcases List.mem_append.1 hmem with h1 | h1
      · exact h1
      · exact absurd (by simpa using h1) hne
    have below : ∀ y ∈ rs.take m, y ≤ R.ivs[m].lo := by
      intro y hy
      obtain ⟨j, hj, rfl⟩ := List.mem_iff_getElem.1 hy
      have hj' : j < m := by simp at hj; omega
      have hjl : j < R.ivs.length := by omega
      have h1 := (h.isolates.get hjl).le_hi
      have h2 := List.pairwise_iff_getElem.1 h.isolates.ordered j m hjl hi hj'
      have h3 : (R.ivs[j].hi : ℝ) ≤ (R.ivs[m].lo : ℝ) := by exact_mod_cast h2
      rw [List.getElem_take]
      exact h1.trans h3
    cases hiv : R.ivs[m] with
    | rational a =>
      rw [hiv] at hI below
      have ha : x = .rat (a ^ n) := hrat a (hI.1 ▸ hI.2)
      have hle : ρ ≤ a := by
        by_cases e : ρ = rs[m]
        · rw [e, hI.1]
        · exact below ρ (hmem' e)
      have ha0 : 0 < a := by exact_mod_cast hρ.trans_le hle
      have hpow : ρ ^ n = (a : ℝ) ^ n := by
        rw [ha] at hx
        have : ρ ^ n = ((a ^ n : ℚ) : ℝ) := hx
        rw [this]; push_cast; rfl
      have hρa : ρ = a := (pow_left_inj₀ hρ.le (by exact_mod_cast ha0.le) hn.ne').1 hpow
      subst ha
      simp only [nthSearch]
      simp only [decide_eq_true ha0, beq_self_eq_true, assertThat, if_true, Option.bind_eq_bind, Option.bind_some]
      refine ⟨g, g1, ?_⟩
      rw [hρa, ← hI.1]
      exact g2
    | real a b d =>
      rw [hiv] at hI below
      have hab : a < b := by exact_mod_cast hI.1.trans hI.2.1
      have hρroot : (rv R.poly).eval ρ = 0 := by
        rw [h.all]
        rcases List.mem_append.1 hmem with h1 | h1
        · exact List.mem_of_mem_take h1
        · rw [List.mem_singleton.1 h1]; exact List.getElem_mem _
      rw [nthSearch]
      simp only [decide_eq_true hab, assertThat, if_true, Option.bind_eq_bind, Option.bind_some]
      by_cases ha0 : 0 < a
      · have ha0' : (0 : ℝ) < a := by exact_mod_cast ha0
        have hb0' : (0 : ℝ) < b := ha0'.trans (by exact_mod_cast hab)
        have c1 := RealAlg.cmp_spec hs (x := .rat (a ^ n)) (r := (a : ℝ) ^ n) (by simp [RealAlg.Is]) hx
        have c2 := RealAlg.cmp_spec hs (y := .rat (b ^ n)) (t := (b : ℝ) ^ n) hx (by simp [RealAlg.Is])
        have ih' := ih (by omega)
        rw [if_pos ha0]
        simp only [c1, c2, Option.bind_some]
        by_cases k1 : ρ < a
        · rw [if_pos ((cmp_eq_gt_iff _ _).2 (pow_lt_pow_left₀ k1 hρ.le hn.ne'))]
          exact ih' (hmem' (fun e => by rw [e] at k1; exact absurd hI.1 (not_lt.2 k1.le)))
        · rw [if_neg (fun hc => by
            have := (cmp_eq_gt_iff _ _).1 hc
            exact k1 (lt_of_pow_lt_pow_left₀ n ha0'.le this))]
          by_cases k2 : (b : ℝ) < ρ
          · rw [if_pos ((cmp_eq_gt_iff _ _).2 (pow_lt_pow_left₀ k2 hb0'.le hn.ne'))]
            exact ih' (hmem' (fun e => by rw [e] at k2; exact absurd hI.2.1 (not_lt.2 k2.le)))
          · rw [if_neg (fun hc => by
              have := (cmp_eq_gt_iff _ _).1 hc
              exact k2 (lt_of_pow_lt_pow_left₀ n hρ.le this))]
            refine ⟨g, g1, ?_⟩
            rw [hI.2.2.2.1 ρ (not_lt.1 k1) (not_lt.1 k2) hρroot]
            exact g2
      · rw [if_neg ha0]
        refine ⟨g, g1, ?_⟩
        have : ρ = rs[m] := by
          by_contra hc
          have h1 := below ρ (hmem' hc)
          have h2 : (a : ℝ) ≤ 0 := by exact_mod_cast not_lt.1 ha0
          simp only [RootIv.lo] at h1
          linarith
        rw [this]
        exact g2

/-- `nth_root`. -/
theorem nthRoot_spec {s : ℚ → ℚ → ℚ} (hs : SimplestOk s) {fac : Fac} (hf : FacOk fac) {x : RealAlg} {r : ℝ} (hx : x.Is r) {n : Nat} (hn : 2 ≤ n) :
    (r < 0 → nthRoot s fac x n = some (.error ())) ∧
    (0 ≤ r → ∃ z ρ, nthRoot s fac x n = some (.ok z) ∧ z.Is ρ ∧ 0 ≤ ρ ∧ ρ ^ n = r) := by
  have c := RealAlg.cmp_spec hs hx (y := .rat 0) (t := 0) (by simp [RealAlg.Is])
  have n0 : (n != 0) = true := by simp; omega
  have n1 : ¬ n = 1 := by omega
  unfold nthRoot
  simp only [n0, n1, c, assertThat, if_true, if_false, Option.bind_eq_bind, Option.bind_some]
  constructor
  · intro hr
    rw [(cmp_eq_lt_iff _ _).2 hr]
  · intro hr
    rcases hr.lt_or_eq with hr | rfl
    · rw [(cmp_eq_gt_iff _ _).2 hr]
      obtain ⟨ρ, hρ, hρn⟩ : ∃ ρ : ℝ, 0 < ρ ∧ ρ ^ n = r := ⟨r ^ ((n : ℝ)⁻¹), Real.rpow_pos_of_pos hr _, Real.rpow_inv_natCast_pow hr.le (by omega)⟩
      obtain ⟨p0, p1, p2⟩ := rootPoly_spec hx
      have hsp := rv_spread (n := n) (by omega) x.rootPoly
      have hs0 : rv (spread n x.rootPoly) ≠ 0 := by
        rw [hsp]
        intro e
        rcases comp_eq_zero_iff.1 e with h1 | ⟨-, h1⟩
        · exact p0 h1
        · have := congrArg natDegree h1
          rw [natDegree_X_pow, natDegree_C] at this
          omega
      have hroot : (rv (spread n x.rootPoly)).eval ρ = 0 := by rw [hsp, eval_comp, eval_pow, eval_X, hρn, p1]
      obtain ⟨q, q1, q2, q3, q4, q5⟩ := polyPrimSquarefreePart_spec intGcd_models (spread n x.rootPoly) (rv_ne_zero.1 hs0)
      have hqρ : (rv q).eval ρ = 0 := sqfreePart_root hf (rv_ne_zero.1 hs0) hroot q5
      have hqsq : Squarefree (rv q) := by rw [rv_eq]; exact squarefree_real q2 q3
      obtain ⟨R, rs, r1, r2, r3⟩ := allRoots_spec (rv_ne_zero.2 q2.ne_zero) hqsq
      obtain ⟨z, z1, z2⟩ := nthSearch_spec hs hf r3 (by rw [r2]; exact q2) (by rw [r2]; exact q3) (n := n) (by omega) hρ (x := x) (by rw [hρn]; exact hx)
        (fun c hc => by
          apply p2
          rw [r2] at hc
          obtain ⟨g, hg⟩ := rv_dvd q4
          have : (rv (spread n x.rootPoly)).eval (c : ℝ) = 0 := by rw [hg, eval_mul, hc, zero_mul]
          rw [hsp, eval_comp, eval_pow, eval_X] at this
          push_cast
          exact this) R.ivs.length (le_refl _) (by
            rw [r3.isolates.isolates.length_eq, List.take_length, ← r3.all, r2]; exact hqρ)
      rw [List.take_length] at z1
      simp only [q1, r1, z1, Option.bind_some]
      exact ⟨z, ρ, rfl, z2, hρ.le, hρn⟩
    · rw [(cmp_eq_eq_iff _ _).2 rfl]
      exact ⟨.rat 0, 0, rfl, by simp [RealAlg.Is], le_refl _, zero_pow (by omega)⟩

end Verif.RealRoots
