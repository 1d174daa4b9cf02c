import Verif.Proofs.AnfRationalFirst
import Verif.Props.AnfFactor

/-! `factorize_rational_factorize_first` called directly. -/

namespace Verif.Anf
open Verif.Rings Polynomial

local notation "qp" => polyVal (id : ℚ → ℚ)

/-- all the coefficients are rational numbers written as constant polynomials -/
def RatCoeffs (p : List (List ℚ)) : Prop := ∀ c ∈ p, ∃ x, qp c = C x

theorem RatCoeffs.mapM {p : List (List ℚ)} (h : RatCoeffs p) : ∃ cs, p.mapM ratOps.polyAsConstant = some cs := by
  induction p with
  | nil => exact ⟨[], rfl⟩
  | cons c p ih =>
    obtain ⟨x, hx⟩ := h c List.mem_cons_self
    obtain ⟨x', h1, -⟩ := ratOps_models.toRing.toSemi.polyAsConstant_some c x hx
    obtain ⟨cs, hcs⟩ := ih fun c hc => h c (List.mem_cons_of_mem _ hc)
    rw [List.mapM_cons, h1, hcs]
    exact ⟨x' :: cs, rfl⟩

/-- C188, the part that holds: when `factorize_rational_factorize_first` (with the factoring by the reduced ring) returns for a squarefree
polynomial, the result is a factorization of it up to a constant, into distinct monic irreducible polynomials; for a polynomial with rational
coefficients the factors are always distinct, monic and irreducible, and their product is squarefree and divides the polynomial. -/
theorem C188_rational_first_partial (f : List ℚ) (hf : Irreducible (qp f)) {N : Nat} {ratFactor : List ℚ → Option (Option (Factored (List ℚ)))}
    (hrf : RatFactorOk N ratFactor) (rng : Nat → Nat → Nat → Nat → Nat → ℚ) (p : List (List ℚ))
    (hN : (qp f).natDegree * (polyVal (el f) p).natDegree < N) (F : Factored (List (List ℚ)))
    (e : rationalFirst ratFactor f (reducedRing ratFactor f rng) p = some F) :
    (Squarefree (polyVal (el f) p) → FactorsOver f F ∧ Associated (F.denote (polyVal (el f))) (polyVal (el f) p)) ∧
    (RatCoeffs p → FactorsOver f F ∧ Squarefree (F.denote (polyVal (el f))) ∧ F.denote (polyVal (el f)) ∣ polyVal (el f) p) := by
  haveI : Fact (Irreducible (qp f)) := ⟨hf⟩
  refine ⟨fun hs => rationalFirst_spec hrf rng p hN hs F e, fun hp => ?_⟩
  obtain ⟨cs, hcs⟩ := hp.mapM
  exact rationalFirst_squarefree hrf rng p hN hcs F e

/-- C188, violated: for a polynomial with rational coefficients that is not squarefree, the product of the result is never the polynomial, not
even up to a constant: the exponents of the rational factors are lost. -/
theorem C188_exponents_wrong (f : List ℚ) (hf : Irreducible (qp f)) {N : Nat} {ratFactor : List ℚ → Option (Option (Factored (List ℚ)))}
    (hrf : RatFactorOk N ratFactor) (rng : Nat → Nat → Nat → Nat → Nat → ℚ) (p : List (List ℚ)) (hp : RatCoeffs p)
    (hs : ¬ Squarefree (polyVal (el f) p)) (hN : (qp f).natDegree * (polyVal (el f) p).natDegree < N) (F : Factored (List (List ℚ)))
    (e : rationalFirst ratFactor f (reducedRing ratFactor f rng) p = some F) :
    ¬ Associated (F.denote (polyVal (el f))) (polyVal (el f) p) := fun h =>
  hs (h.squarefree_iff.1 ((C188_rational_first_partial f hf hrf rng p hN F e).2 hp).2.1)

/-- the hypotheses are met, and the function returns: over the rational numbers written as a number field of degree one, for `x²` -/
example : ∃ ratFactor N, RatFactorOk N ratFactor ∧ Irreducible (qp [0, 1]) ∧ RatCoeffs [[], [], [1]] ∧
    ¬ Squarefree (polyVal (el [0, 1]) [[], [], [1]]) ∧ (qp [0, 1]).natDegree * (polyVal (el [0, 1]) [[], [], [1]]).natDegree < N ∧
    ∀ rng, ∃ F, rationalFirst ratFactor [0, 1] (reducedRing ratFactor [0, 1] rng) [[], [], [1]] = some F := by
  obtain ⟨factor, h⟩ := exists_intUfd
  obtain ⟨rand, hr⟩ := exists_fair
  obtain ⟨k1, k2⟩ := C184_rat_factor_ok h hr
  have hX : qp [0, 1] = X := by simp [polyVal_cons]
  have h1 : (qp [0, 1]).natDegree = 1 := by rw [hX, natDegree_X]
  have hirr : Irreducible (qp [0, 1]) := by rw [hX]; exact irreducible_X
  haveI : Fact (Irreducible (qp [0, 1])) := ⟨hirr⟩
  have hp : polyVal (el [0, 1]) [[], [], [1]] = X ^ 2 := by
    have h0 : el [0, 1] [] = 0 := map_zero (AdjoinRoot.mk (qp [0, 1]))
    have h1 : el [0, 1] [1] = 1 := by
      have := el_const (f := [0, 1]) 1
      rwa [map_one] at this
    simp only [polyVal_cons, polyVal_nil, h0, h1, C_0, C_1]
    ring
  have hd : (polyVal (el [0, 1]) [[], [], [1]]).natDegree = 2 := by rw [hp, natDegree_X_pow]
  have hlt : (polyVal (el [0, 1]) [[], [], [1]]).natDegree < machineRange := by rw [hd]; norm_num [machineRange]
  refine ⟨_, machineRange, k1, hirr, ?_, ?_, by rw [h1, one_mul]; exact hlt, fun rng => ?_⟩
  · intro c hc
    simp only [List.mem_cons, List.not_mem_nil, or_false] at hc
    rcases hc with rfl | rfl | rfl
    · exact ⟨0, by simp [polyVal]⟩
    · exact ⟨0, by simp [polyVal]⟩
    · exact ⟨1, by simp [polyVal]⟩
  · rw [hp]
    intro h
    exact not_isUnit_X (h X (by rw [pow_two]))
  · exact rationalFirst_total k1 k2 h1 rng _ (by rw [hp]; exact pow_ne_zero _ X_ne_zero) hlt

end Verif.Anf
