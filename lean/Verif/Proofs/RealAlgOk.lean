import Verif.Props.IntPoly
import Verif.Proofs.RealAlgWrong2
import Mathlib.RingTheory.Algebraic.Integral

/-!
# The parameters of the real algebraic numbers exist
-/

namespace Verif.RealRoots

open Polynomial Verif.Rings

/-- A factorization with the leading zeros of its factors removed. -/
def trimFactors (f : Factored (List Int)) : Factored (List Int) := ⟨f.unit, f.factors.map fun q => (intGcd.polyReduce q.1, q.2)⟩

theorem trim_val (p : List Int) : ipoly (intGcd.polyReduce p) = ipoly p := intGcd_models.toSemi.polyReduce p

/-- There is a correct `factor`. -/
theorem exists_facOk : ∃ fac, FacOk fac := by
  obtain ⟨factor, h⟩ := exists_intUfd
  obtain ⟨rand, hr⟩ := exists_fair
  have hbz := (C99_naive_partial h hr).2
  refine ⟨fun p => (bzNaiveFactorize factor rand p).map (·.map trimFactors), ⟨fun p hp => ?_, ?_⟩⟩
  · obtain ⟨f, f1, f2, f3, -⟩ := hbz p hp
    refine ⟨trimFactors f, by simp [f1], ⟨f2.unit, ?_, ?_, ?_, ?_⟩, ?_⟩
    · intro q hq
      obtain ⟨q', h1, rfl⟩ := List.mem_map.1 hq
      rw [trim_val]; exact f2.irreducible q' h1
    · intro q hq
      obtain ⟨q', h1, rfl⟩ := List.mem_map.1 hq
      rw [trim_val]; exact f2.fav q' h1
    · intro q hq
      obtain ⟨q', h1, rfl⟩ := List.mem_map.1 hq
      exact f2.pos q' h1
    · have : ((trimFactors f).factors.map fun p => ipoly p.1) = f.factors.map fun p => ipoly p.1 := by
        simp only [trimFactors, List.map_map]
        apply List.map_congr_left
        intro q _
        exact trim_val q.1
      rw [this]; exact f2.distinct
    · have : (trimFactors f).denote (polyVal (id : Int → Int)) = f.denote (polyVal (id : Int → Int)) := by
        unfold Factored.denote
        simp only [trimFactors, List.map_map]
        congr 2
        apply List.map_congr_left
        intro q _
        simp only [Function.comp]
        rw [trim_val]
      rw [this]; exact f3
  · intro p f hpf q hq
    simp only [Option.map_eq_some_iff] at hpf
    obtain ⟨o, -, g, -, rfl⟩ := hpf
    obtain ⟨q', -, rfl⟩ := List.mem_map.1 hq
    exact intGcd_models.toSemi.polyReduce_reduced q'.1

theorem root_algebraic {p : List Int} (h : rv p ≠ 0) {x : ℝ} (hx : (rv p).eval x = 0) : IsAlgebraic ℤ x :=
  ⟨ipoly p, rv_ne_zero.1 h, by rw [rv_eq, eval_map] at hx; rw [aeval_def]; exact hx⟩

/-- There is a polynomial for the sums or products of the roots of two polynomials. -/
theorem exists_opPoly (op : ℝ → ℝ → ℝ) (hop : ∀ x y, IsAlgebraic ℤ x → IsAlgebraic ℤ y → IsAlgebraic ℤ (op x y)) : ∃ f, OpPolyOk op f := by
  classical
  have key : ∀ p q : List Int, ∃ r : List Int, rv p ≠ 0 → rv q ≠ 0 → rv r ≠ 0 ∧
      ∀ x y : ℝ, (rv p).eval x = 0 → (rv q).eval y = 0 → (rv r).eval (op x y) = 0 := by
    intro p q
    by_cases hp : rv p ≠ 0
    · by_cases hq : rv q ≠ 0
      · have hex : ∀ z : ℝ, ∃ f : ℤ[X], f ≠ 0 ∧ (IsAlgebraic ℤ z → (f.map (Int.castRingHom ℝ)).eval z = 0) := by
          intro z
          by_cases hz : IsAlgebraic ℤ z
          · obtain ⟨f, f1, f2⟩ := hz
            exact ⟨f, f1, fun _ => by rw [eval_map]; exact f2⟩
          · exact ⟨1, one_ne_zero, fun h => absurd h hz⟩
        choose f f1 f2 using hex
        let F : ℤ[X] := ∏ xy ∈ (rv p).roots.toFinset ×ˢ (rv q).roots.toFinset, f (op xy.1 xy.2)
        obtain ⟨r, hr⟩ := intGcd_models.toSemi.poly.surj F
        refine ⟨r, fun _ _ => ⟨?_, ?_⟩⟩
        · apply rv_ne_zero.2
          rw [hr]
          exact Finset.prod_ne_zero_iff.2 (fun _ _ => f1 _)
        · intro x y hx hy
          rw [rv_eq, hr, Polynomial.map_prod, eval_prod]
          refine Finset.prod_eq_zero (i := (x, y)) ?_ (f2 _ (hop x y (root_algebraic hp hx) (root_algebraic hq hy)))
          rw [Finset.mem_product, Multiset.mem_toFinset, Multiset.mem_toFinset, mem_roots hp, mem_roots hq]
          exact ⟨hx, hy⟩
      · exact ⟨[], fun _ h => absurd h hq⟩
    · exact ⟨[], fun h => absurd h hp⟩
  choose r hr using key
  exact ⟨fun p q => some (r p q), fun p q hp hq => ⟨r p q, rfl, hr p q hp hq⟩⟩

theorem exists_sumPoly : ∃ f, OpPolyOk (· + ·) f := exists_opPoly _ fun _ _ hx hy => hx.add hy

theorem exists_prodPoly : ∃ f, OpPolyOk (· * ·) f := exists_opPoly _ fun _ _ hx hy => hx.mul hy

theorem exists_simplest : ∃ s, SimplestOk s := ⟨fun a b => (a + b) / 2, fun a b h => ⟨by linarith, by linarith⟩⟩

end Verif.RealRoots
