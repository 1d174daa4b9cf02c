import Verif.Proofs.AnfFactorMain
import Mathlib.Algebra.Polynomial.SpecificDegree

/-! A run of the factoring of a polynomial over the Gaussian numbers. -/

namespace Verif.Anf
open Verif.Rings Polynomial

local notation "qp" => polyVal (id : ℚ → ℚ)

/-- a function that factors only `x² + 1` -/
def exFac : List ℚ → Option (Option (Factored (List ℚ))) := fun g => if g = [1, 0, 1] then some (some ⟨[1], [([1, 0, 1], 1)]⟩) else none
/-- the oracle that always gives the coefficient 1 of the generator of the number field -/
def exRng : Nat → Nat → Nat → Nat → Nat → ℚ := fun _ _ _ _ j => if j = 1 then 1 else 0

/-- the stored identity matrix -/
def exMat : Mat ℚ := ⟨2, 2, false, false, false, [1, 0, 0, 1]⟩

theorem exMat_den : exMat.Denotes (id : ℚ → ℚ) (1 : Matrix (Fin 2) (Fin 2) ℚ) :=
  ⟨rfl, rfl, rfl, fun i j => by fin_cases i <;> fin_cases j <;> exact ⟨_, rfl, by simp⟩⟩

theorem exRank : ratOps.fieldEuc.bezout.matRank exMat = some 2 := by
  obtain ⟨k, k1, -, k2⟩ := ratBez.matRank_rows exMat_den
  rw [k1, k2.2 (Matrix.linearIndependent_rows_iff_isUnit.2 isUnit_one)]

theorem exSolveOf (vec : Mat ℚ) (a b : ℚ) (hv : vec.Denotes (id : ℚ → ℚ) (Matrix.of fun (_ : Fin 1) (j : Fin 2) => if j = 0 then a else b)) :
    ∃ x, ratOps.fieldEuc.bezout.rowSolve exMat vec = some (some x) ∧ x.rows = 1 ∧ x.cols = 2 ∧
    x.get 0 0 = some a ∧ x.get 0 1 = some b := by
  rcases ratBez.rowSolve exMat_den hv with ⟨x, X, h1, h2, h3⟩ | ⟨-, h2⟩
  · rw [Matrix.mul_one] at h3
    subst h3
    obtain ⟨y, y1, y2⟩ := h2.get 0 0
    obtain ⟨z, z1, z2⟩ := h2.get 0 1
    refine ⟨x, h1, h2.rows, h2.cols, ?_, ?_⟩
    · have : y = a := by simpa using y2
      rw [← this]; exact y1
    · have : z = b := by simpa using z2
      rw [← this]; exact z1
  · exact absurd ⟨_, Matrix.mul_one _⟩ h2

theorem exSolve (a b : ℚ) : ∃ x, ratOps.fieldEuc.bezout.rowSolve exMat ⟨1, 2, false, false, false, [a, b]⟩ = some (some x) ∧ x.rows = 1 ∧ x.cols = 2 ∧
    x.get 0 0 = some a ∧ x.get 0 1 = some b :=
  exSolveOf _ a b ⟨rfl, rfl, rfl, fun i j => by fin_cases i; fin_cases j <;> exact ⟨_, rfl, by simp⟩⟩

theorem exSearch : alphaSearch [1, 0, 1] [[], [2]] 1 2 2 (exRng 1 2) 0 = some ([[0, 1]], exMat) := by
  rw [alphaSearch]
  rw [show randomAlpha 1 2 (exRng 1 2 0) = [[0, 1]] by decide +kernel,
    show lToVec [1, 0, 1] [[], [2]] 1 2 [[0, 1]] = some ⟨1, 2, false, false, false, [0, 1]⟩ by decide +kernel,
    show alphaPowMat [1, 0, 1] [[], [2]] 1 2 2 [[0, 1]] = some exMat by decide +kernel]
  simp only [Option.bind_eq_bind, Option.bind_some]
  rw [show rowToDoublePoly 1 2 ⟨1, 2, false, false, false, [0, 1]⟩ = some [[0, 1]] by decide +kernel]
  simp only [Option.bind_some, exRank]
  rw [show ((anfOps [1, 0, 1]).pqRing [[], [2]]).equal [[0, 1]] [[0, 1]] = true by decide +kernel]
  rfl

theorem rowToPoly_two (x : Mat ℚ) (a b : ℚ) (h0 : x.get 0 0 = some a) (h1 : x.get 0 1 = some b) : rowToPoly 2 x = some [a, b] := by
  unfold rowToPoly
  rw [show List.range 2 = [0, 1] from rfl]
  simp [h0, h1]

theorem rowToDouble_two (x : Mat ℚ) (a b : ℚ) (hr : x.rows = 1) (hc : x.cols = 2) (h0 : x.get 0 0 = some a) (h1 : x.get 0 1 = some b) :
    rowToDoublePoly 1 2 x = some [[a, b]] := by
  unfold rowToDoublePoly
  rw [hr, hc, show List.range 2 = [0, 1] from rfl, show List.range 1 = [0] from rfl]
  simp [h0, h1, assertThat]

theorem exAlphaPoly : alphaPoly [1, 0, 1] [[], [2]] 1 2 2 [[0, 1]] exMat = some [1, 0, 1] := by
  obtain ⟨x, x1, -, -, x4, x5⟩ := exSolve (-1) 0
  unfold alphaPoly
  rw [show lToVec [1, 0, 1] [[], [2]] 1 2 (((anfOps [1, 0, 1]).pqRing [[], [2]]).natPow [[0, 1]] 2) = some ⟨1, 2, false, false, false, [-1, 0]⟩ by
    decide +kernel]
  simp only [Option.bind_eq_bind, Option.bind_some, x1, id, rowToPoly_two x _ _ x4 x5]
  decide +kernel

theorem exToLa (y : List (List ℚ)) (a b : ℚ) (e : lToVec [1, 0, 1] [[], [2]] 1 2 y = some ⟨1, 2, false, false, false, [a, b]⟩) :
    lToLa [1, 0, 1] [[], [2]] 1 2 2 exMat y = some [a, b] := by
  obtain ⟨x, x1, -, -, x4, x5⟩ := exSolve a b
  unfold lToLa
  simp only [e, Option.bind_eq_bind, Option.bind_some, x1, id, rowToPoly_two x _ _ x4 x5]

theorem exFactorRun : reducedFactor exFac [1, 0, 1] 2 [0, 1] [0, 0] ([1, 0, 1], 1) = some [[], [1]] := by
  obtain ⟨x, x1, x2, x3, x4, x5⟩ := exSolveOf ⟨2, 1, true, false, false, [0, 0]⟩ 0 0
    ⟨rfl, rfl, rfl, fun i j => by fin_cases i; fin_cases j <;> exact ⟨_, rfl, by simp⟩⟩
  unfold reducedFactor
  dsimp only
  rw [show isIrreducibleBy exFac [1, 0, 1] = some true by decide +kernel,
    show ratOps.pqDegree [1, 0, 1] = some 2 by decide +kernel]
  simp only [Option.bind_eq_bind, Option.bind_some]
  rw [show (laiBasis 2 (2 / 2) [0, 1] [0, 0] [1, 0, 1]).mapM (ratOps.pqToRow [1, 0, 1]) =
    some [⟨2, 1, true, false, false, [1, 0]⟩, ⟨2, 1, true, false, false, [0, 1]⟩] by decide +kernel]
  simp only [Option.bind_some]
  rw [show Mat.joinRows 2 [(⟨2, 1, true, false, false, [1, 0]⟩ : Mat ℚ), ⟨2, 1, true, false, false, [0, 1]⟩] = some exMat by decide +kernel]
  simp only [Option.bind_some, exRank]
  rw [show ratOps.pqToRow [1, 0, 1] ((ratOps.pqRing [1, 0, 1]).natPow [0, 0] (2 / 2)) = some ⟨2, 1, true, false, false, [0, 0]⟩ by decide +kernel]
  simp only [Option.bind_some, x1, id]
  rw [rowToDouble_two x 0 0 x2 x3 x4 x5]
  decide +kernel

theorem gauss_val : qp [1, 0, 1] = X ^ 2 + C 1 := by
  simp [polyVal]
  ring

theorem gauss_irreducible : Irreducible (qp [1, 0, 1]) := by
  have hd : (qp [1, 0, 1]).natDegree = 2 := by rw [gauss_val]; exact natDegree_X_pow_add_C
  have hm : (qp [1, 0, 1]).Monic := by rw [gauss_val]; exact monic_X_pow_add_C _ (by norm_num)
  rw [Polynomial.irreducible_iff_roots_eq_zero_of_degree_le_three (by rw [hd]) (by rw [hd]; norm_num), Multiset.eq_zero_iff_forall_notMem]
  intro x hx
  rw [mem_roots hm.ne_zero, IsRoot.def, gauss_val] at hx
  simp at hx
  nlinarith [sq_nonneg x]

theorem ex_modulus : polyVal (el [1, 0, 1]) [[], [2]] = C (2 : NumField [1, 0, 1]) * X := by
  have h1 : el [1, 0, 1] [] = 0 := map_zero _
  have h2 : el [1, 0, 1] [2] = 2 := (el_const (f := [1, 0, 1]) 2).trans (map_ofNat _ 2)
  simp only [polyVal_cons, polyVal_nil, h1, h2]
  rw [C_0]
  ring

theorem exVar : lToVec [1, 0, 1] [[], [2]] 1 2 (anfOps [1, 0, 1]).polyVar = some ⟨1, 2, false, false, false, [0, 0]⟩ := by
  haveI : Fact (Irreducible (qp [1, 0, 1])) := ⟨gauss_irreducible⟩
  have h2 : (C (2 : NumField [1, 0, 1])) * C (algebraMap ℚ _ (1 / 2)) = 1 := by
    rw [← C_mul, show (2 : NumField [1, 0, 1]) = algebraMap ℚ _ 2 from (map_ofNat _ 2).symm, ← map_mul]
    norm_num
  have h0 : polyVal (el [1, 0, 1]) [[], [2]] ≠ 0 := by
    rw [ex_modulus]
    refine mul_ne_zero (fun h => ?_) X_ne_zero
    rw [h, zero_mul] at h2
    exact zero_ne_one h2
  obtain ⟨r, r1, r2⟩ := anfOps_models.polyRemMod (anfOps [1, 0, 1]).polyVar [[], [2]] h0
  have h3 : polyVal (el [1, 0, 1]) r = 0 := by
    rw [r2, EuclideanDomain.mod_eq_zero, anfOps_models.toRing.toSemi.polyVar, ex_modulus]
    refine ⟨C (algebraMap ℚ _ (1 / 2)), ?_⟩
    rw [mul_comm (C (2 : NumField [1, 0, 1])) X, mul_assoc, h2, mul_one]
  have h4 : PolyReduced (el [1, 0, 1]) r := anfOps_models.polyRem_reduced _ [[], [2]] r (by
    intro c hc
    have : c = [1] := by
      have h : (anfOps [1, 0, 1]).polyVar = [[], [1]] := by decide +kernel
      rw [h] at hc
      simpa using hc.symm
    subst this
    have h : el [1, 0, 1] [1] = 1 := (el_const (f := [1, 0, 1]) 1).trans (map_one _)
    rw [h]
    exact one_ne_zero) r1
  have h5 : r = [] := by
    have := h4.length_le (n := 0) (by rw [h3]; simp)
    exact List.length_eq_zero_iff.1 (by omega)
  unfold lToVec
  rw [show (anfOps [1, 0, 1]).pqReduce [[], [2]] (anfOps [1, 0, 1]).polyVar = some [] by rw [h5] at r1; exact r1]
  decide +kernel

theorem exRun : reducedRing exFac [1, 0, 1] exRng [[], [2]] = some ⟨[[1]], [([[], [1]], 1)]⟩ := by
  unfold reducedRing
  rw [show ratOps.pqDegree [1, 0, 1] = some 2 by decide +kernel,
    show (anfOps [1, 0, 1]).toSemiRingOps.poly.isZero [[], [2]] = false by decide +kernel]
  simp only [Option.bind_eq_bind, Option.bind_some, assertThat, Bool.not_false, if_true]
  rw [if_neg (by decide)]
  unfold reducedGeneral
  rw [show (anfOps [1, 0, 1]).pqDegree [[], [2]] = some 1 by decide +kernel]
  simp only [Option.bind_eq_bind, Option.bind_some, assertThat, le_refl, decide_true, if_true, exSearch, exAlphaPoly, Nat.mul_one]
  rw [exToLa _ 0 1 (by decide +kernel), exToLa _ 0 0 exVar]
  simp only [Option.bind_some]
  rw [show exFac [1, 0, 1] = some (some ⟨[1], [([1, 0, 1], 1)]⟩) from if_pos rfl]
  simp only [Option.bind_some, id, List.mapM_cons, List.mapM_nil, Option.bind_eq_bind, exFactorRun]
  rfl

theorem exFac_ok (N : Nat) : RatFactorOk N exFac := by
  intro g r _ _ e
  unfold exFac at e
  split at e
  · rename_i hg
    cases e
    subst hg
    have h1 : qp ([1] : List ℚ) = 1 := by simp [polyVal]
    have hm : (qp [1, 0, 1]).Monic := by rw [gauss_val]; exact monic_X_pow_add_C _ (by norm_num)
    refine ⟨_, rfl, ⟨by rw [h1]; exact isUnit_one, ?_, ?_, ?_, ?_⟩, ?_⟩
    · intro y hy
      obtain rfl := List.mem_singleton.1 hy
      exact gauss_irreducible
    · intro y hy
      obtain rfl := List.mem_singleton.1 hy
      exact monic_fav ratOps_models hm
    · intro y hy
      obtain rfl := List.mem_singleton.1 hy
      exact Nat.one_pos
    · simp
    · unfold Factored.denote
      simp only [List.map_cons, List.map_nil, List.prod_cons, List.prod_nil, h1, one_mul, mul_one, pow_one]
      exact Associated.refl _
  · cases e

end Verif.Anf
