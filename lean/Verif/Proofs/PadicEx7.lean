import Verif.Proofs.PadicDrop

/-!
# Square roots in the 7-adic numbers
-/

namespace Verif.Padic

open Polynomial Verif.Rings Verif.RealRoots

local instance fact7 : Fact (Nat.Prime 7) := ⟨by norm_num⟩

/-- The balls of `c x² + a` in the 7-adic numbers. -/
theorem isolate_quad7 {fac : Fac} (hfac : FacOk fac) {a c : Int} (hirr : Irreducible (ipoly [a, 0, c])) (hd : (ipoly [a, 0, c]).natDegree = 2) (hc : c ≠ 0)
    (hz : intGcd.toSemiRingOps.poly.isZero [a, 0, c] = false) (hn : intGcd.polyDegree [a, 0, c] = some 2) (hα : (intVal 7 (0 ^ 2 - 4 * c * a)).unwrapNat = some 0)
    (hcp : criticalPairs 7 [a, 0, c] = some [⟨2, 0, 2, 0, 0, 0⟩]) {bs : List Ball}
    (hbc : BPair.isCritical 7 [a, 0, c] ⟨2, 0, 2, 0, 0, 0⟩ = some true) (hm : (List.range 3).mapM (normCoeff 7 [a, 0, c] ⟨2, 0, 2, 0, 0, 0⟩) = some [a, 0, c])
    (hb : ((List.range' 1 6).flatMap fun i => isorefine 7 [a, 0, c] (intGcd.polyDerivative [a, 0, c]) 0 i 1) = bs) :
    isolate fac 7 [a, 0, c] = some bs := by
  have h0 : isolate0 7 [a, 0, c] = some bs := isolate0_eval 7 hz (squarefree_ok hirr hd.ge) hn (disc2 _ _ _ hc) hα hb
  rw [isolate_eval (n := 0) (l := [bs]) 7 hirr hd.ge hn hcp]
  · simp
  · rw [show firstPairs [] [(⟨2, 0, 2, 0, 0, 0⟩ : BPair)] = [⟨2, 0, 2, 0, 0, 0⟩] by decide +kernel, List.mapM_cons, List.mapM_nil,
      pairBalls_eval hfac 7 hirr hbc hm h0]
    simp

theorem noSq {n : Int} (h0 : 0 ≤ n) (k : Int) (h1 : k ^ 2 < n) (h2 : n < (k + 1) ^ 2) (hk : 0 ≤ k) (y : Int) : y ^ 2 + 0 * y + -n ≠ 0 := by
  intro h
  have hy : y ^ 2 = n := by linarith
  have := sq_abs y
  have a1 : k < |y| := by by_contra hh; have := abs_nonneg y; nlinarith
  have a2 : |y| < k + 1 := by by_contra hh; nlinarith
  omega

theorem ok2 : PolyOk [-2, 0, 1] := quad_ok (noSq (by norm_num) 1 (by norm_num) (by norm_num) (by norm_num))
theorem ok11 : PolyOk [-11, 0, 1] := quad_ok (noSq (by norm_num) 3 (by norm_num) (by norm_num) (by norm_num))
theorem ok22 : PolyOk [-22, 0, 1] := quad_ok (noSq (by norm_num) 4 (by norm_num) (by norm_num) (by norm_num))
theorem ok8 : PolyOk [-8, 0, 1] := quad_ok (noSq (by norm_num) 2 (by norm_num) (by norm_num) (by norm_num))

theorem degQ {a c : Int} (hc : c ≠ 0) : (ipoly [a, 0, c]).natDegree = 2 := by rw [quad_val]; exact natDegree_quadratic hc

theorem iso2 {fac : Fac} (hfac : FacOk fac) : isolate fac 7 [-2, 0, 1] = some [⟨3, 1⟩, ⟨4, 1⟩] :=
  isolate_quad7 hfac ok2.irreducible (degQ one_ne_zero) one_ne_zero (by decide +kernel) (by decide +kernel) (by decide +kernel) (by decide +kernel)
    (by decide +kernel) (by decide +kernel) (by decide +kernel)

theorem iso11 {fac : Fac} (hfac : FacOk fac) : isolate fac 7 [-11, 0, 1] = some [⟨2, 1⟩, ⟨5, 1⟩] :=
  isolate_quad7 hfac ok11.irreducible (degQ one_ne_zero) one_ne_zero (by decide +kernel) (by decide +kernel) (by decide +kernel) (by decide +kernel)
    (by decide +kernel) (by decide +kernel) (by decide +kernel)

theorem iso22 {fac : Fac} (hfac : FacOk fac) : isolate fac 7 [-22, 0, 1] = some [⟨1, 1⟩, ⟨6, 1⟩] :=
  isolate_quad7 hfac ok22.irreducible (degQ one_ne_zero) one_ne_zero (by decide +kernel) (by decide +kernel) (by decide +kernel) (by decide +kernel)
    (by decide +kernel) (by decide +kernel) (by decide +kernel)

theorem iso8 {fac : Fac} (hfac : FacOk fac) : isolate fac 7 [-8, 0, 1] = some [⟨1, 1⟩, ⟨6, 1⟩] :=
  isolate_quad7 hfac ok8.irreducible (degQ one_ne_zero) one_ne_zero (by decide +kernel) (by decide +kernel) (by decide +kernel) (by decide +kernel)
    (by decide +kernel) (by decide +kernel) (by decide +kernel)

theorem eval_quad {E : Type} [Field E] (a c : Int) (z : E) : ((ipoly [a, 0, c]).map (Int.castRingHom E)).eval z = c * z ^ 2 + a := by
  rw [quad_val]; simp

/-- The first root that `isolate` gives. -/
theorem exists_quad7 {n : Int} (hn : PolyOk [-n, 0, 1]) {b b' : Ball} (h : ∀ fac, FacOk fac → isolate fac 7 [-n, 0, 1] = some [b, b']) :
    ∃ x : ℚ_[7], PRoot.Is ⟨[-n, 0, 1], b⟩ x ∧ x ^ 2 = n := by
  obtain ⟨fac, hfac⟩ := exists_facOk
  obtain ⟨bs, h1, xs, h2, h3, h4⟩ := isolate_spec (p := 7) hfac [-n, 0, 1] hn.irreducible hn.degree
  rw [h fac hfac] at h1
  obtain rfl := Option.some.inj h1
  obtain ⟨x, xs', hx, h5, rfl⟩ := List.forall₂_cons_left_iff.1 h2
  refine ⟨x, ⟨hn.reduced, hn.irreducible, hn.degree, hx.1, hx.2⟩, ?_⟩
  have := hx.1.root
  rw [show pv 7 [-n, 0, 1] = _ from rfl, eval_quad] at this
  push_cast at this
  linear_combination this

/-- The roots of the polynomial of a sum or product of square roots. -/
theorem op_roots {op : ℂ → ℂ → ℂ} {opPoly : List Int → List Int → Option (List Int)} (h : OpPolyExact op opPoly) {a b : Int} {f : List Int}
    (hf : opPoly [-a, 0, 1] [-b, 0, 1] = some f) (ha : PolyOk [-a, 0, 1]) (hb : PolyOk [-b, 0, 1]) (F : ℤ[X])
    (hF : ∀ u v : ℂ, u ^ 2 = a → v ^ 2 = b → (F.map (Int.castRingHom ℂ)).eval (op u v) = 0) :
    (ipoly f).IsPrimitive ∧ ∀ z : ℚ_[7], (pv 7 f).eval z = 0 → (F.map (Int.castRingHom ℚ_[7])).eval z = 0 := by
  obtain ⟨g, g1, g2, g3, g4⟩ := h _ _ ha.irreducible.ne_zero hb.irreducible.ne_zero
  rw [hf, Option.some_inj] at g1
  subst g1
  obtain ⟨A, ι, hA⟩ := exists_embedding ℚ_[7]
  refine ⟨g2, fun z hz => ?_⟩
  have h1 := (eval_embed ι (ipoly f) ⟨z, hA _ g2.ne_zero z hz⟩).2 hz
  obtain ⟨u, v, hu, hv, e⟩ := (g4 _).1 h1
  rw [show cval [-a, 0, 1] = (ipoly [-a, 0, 1]).map (Int.castRingHom ℂ) from rfl, eval_quad] at hu
  rw [show cval [-b, 0, 1] = (ipoly [-b, 0, 1]).map (Int.castRingHom ℂ) from rfl, eval_quad] at hv
  have := hF u v (by push_cast at hu; linear_combination hu) (by push_cast at hv; linear_combination hv)
  rw [← e] at this
  exact (eval_embed ι F ⟨z, hA _ g2.ne_zero z hz⟩).1 this

theorem integral_of_sq {z : ℚ_[7]} {n : Int} (h : z ^ 2 = n) : ‖z‖ ≤ 1 := by
  have h1 : ‖z‖ ^ 2 ≤ 1 := by rw [← norm_pow, h]; exact _root_.Padic.norm_int_le_one n
  by_contra hh
  push Not at hh
  nlinarith

theorem unit_of_sq {z : ℚ_[7]} {n : Int} (h : z ^ 2 = n) (hn : ¬ (7 : ℤ) ∣ n) : ‖z‖ = 1 := by
  have h1 : ‖z‖ ^ 2 = 1 := by
    rw [← norm_pow, h]
    refine le_antisymm (_root_.Padic.norm_int_le_one n) (not_lt.1 fun hlt => hn ?_)
    simpa using (_root_.Padic.norm_intCast_lt_one_iff (p := 7)).1 hlt
  exact (pow_eq_one_iff_of_nonneg (norm_nonneg _) two_ne_zero).1 h1

end Verif.Padic
