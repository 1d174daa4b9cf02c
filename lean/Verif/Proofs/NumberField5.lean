import Verif.Proofs.NumberField4
import Mathlib.NumberTheory.LucasPrimality
import Mathlib.Tactic.NormNum.Prime
import Mathlib.RingTheory.Trace.Basic
import Mathlib.Algebra.Polynomial.SpecificDegree
import Mathlib.Data.Rat.Lemmas

/-! Quadratic fields, and a discriminant with a large prime factor. -/

namespace Verif.Anf
open Verif.Rings Polynomial

attribute [-instance] Rat.smulDivisionRing Rat.instDistribSMul

local notation "qp" => polyVal (id : ℚ → ℚ)

section
variable {f : List ℚ} [hirr : Fact (Irreducible (qp f))] {n : Nat}

/-- the powers of the generator -/
noncomputable def powers (f : List ℚ) (n : Nat) (i : Fin n) : NumField f := el f [0, 1] ^ (i : Nat)

theorem varPow_el (i : Nat) : el f (ratOps.polyVarPow i) = el f [0, 1] ^ i := by
  unfold el
  rw [polyVarPow_val, ← map_pow]
  congr 2
  simp [polyVal]

theorem Start.discr {g : List (List ℚ)} {m : Fin n → ℤ} (h : Start f n g m) (hi : IsIntegral ℤ (el f [0, 1])) :
    Algebra.discr ℚ (els f g n) = Algebra.discr ℚ (powers f n) := by
  have h1 := Algebra.discr_of_matrix_mulVec (A := ℚ) (powers f n) (Matrix.diagonal fun i => (m i : ℚ))
  have h2 : (((Matrix.diagonal fun i => (m i : ℚ)).map (algebraMap ℚ (NumField f))).mulVec (powers f n)) = els f g n := by
    funext i
    rw [Matrix.diagonal_map (map_zero _), Matrix.mulVec_diagonal, h.eq i, varPow_el, Algebra.smul_def]
    rfl
  rw [← h2, h1, Matrix.det_diagonal, ← Finset.prod_pow]
  rw [Finset.prod_eq_one, one_mul]
  intro i _
  have h3 := h.unit i (by rw [varPow_el]; exact hi.pow _)
  rcases Int.isUnit_iff.1 (isUnit_of_dvd_one h3) with h4 | h4 <;> rw [h4] <;> norm_num

end

/-! ## Quadratic fields -/

section
variable (b c : ℤ)

/-- `x² + b x + c` -/
def quad : List ℚ := [(c : ℚ), (b : ℚ), 1]

theorem quad_val : qp (quad b c) = X ^ 2 + C (b : ℚ) * X + C (c : ℚ) := by
  simp [quad, polyVal]
  ring

theorem quad_monic : (qp (quad b c)).Monic := by
  rw [quad_val]
  monicity!

theorem quad_natDegree : (qp (quad b c)).natDegree = 2 := by
  rw [quad_val]
  compute_degree!

variable [hirr : Fact (Irreducible (qp (quad b c)))]

local notation "θ" => el (quad b c) [0, 1]

theorem gen_eq : el (quad b c) [0, 1] = AdjoinRoot.root (qp (quad b c)) := by
  unfold el
  rw [← AdjoinRoot.mk_X]
  congr 1
  simp [polyVal]

theorem gen_sq : (θ) ^ 2 = -((b : ℚ) • θ) - (c : ℚ) • (1 : NumField (quad b c)) := by
  have h0 := AdjoinRoot.eval₂_root (qp (quad b c))
  have h : Polynomial.eval₂ (AdjoinRoot.of (qp (quad b c))) (AdjoinRoot.root (qp (quad b c)))
      (X ^ 2 + C (b : ℚ) * X + C (c : ℚ)) = 0 := (congrArg _ (quad_val b c).symm).trans h0
  simp only [eval₂_add, eval₂_mul, eval₂_pow, eval₂_X, eval₂_C] at h
  rw [gen_eq, Algebra.smul_def, Algebra.smul_def, mul_one]
  have h2 : (algebraMap ℚ (NumField (quad b c))) = AdjoinRoot.of (qp (quad b c)) := rfl
  rw [h2]
  linear_combination h

theorem gen_integral : IsIntegral ℤ (θ) := by
  refine ⟨X ^ 2 + C b * X + C c, by monicity!, ?_⟩
  have h := gen_sq b c
  rw [Algebra.smul_def, Algebra.smul_def, mul_one] at h
  simp only [eval₂_add, eval₂_mul, eval₂_pow, eval₂_X, eval₂_C]
  rw [h]
  simp
  ring

theorem trace_one : Algebra.trace ℚ (NumField (quad b c)) 1 = 2 := by
  have := Algebra.trace_algebraMap (R := ℚ) (S := NumField (quad b c)) 1
  rw [map_one, finrank_eq, quad_natDegree] at this
  rw [this]
  norm_num

theorem trace_gen : Algebra.trace ℚ (NumField (quad b c)) (θ) = -b := by
  have h := PowerBasis.trace_gen_eq_nextCoeff_minpoly (AdjoinRoot.powerBasis (irr_ne (quad b c)))
  rw [AdjoinRoot.powerBasis_gen, AdjoinRoot.minpoly_root (irr_ne (quad b c)), (quad_monic b c).leadingCoeff, inv_one, C_1, mul_one] at h
  rw [gen_eq]
  refine h.trans ?_
  rw [nextCoeff, if_neg (by rw [quad_natDegree]; norm_num), quad_natDegree, quad_val]
  rw [coeff_add, coeff_add, coeff_X_pow, coeff_C_mul, coeff_X_one, coeff_C]
  simp

theorem trace_gen_sq : Algebra.trace ℚ (NumField (quad b c)) (θ ^ 2) = b ^ 2 - 2 * c := by
  rw [gen_sq, map_sub, map_neg, map_smul, map_smul, trace_gen, trace_one]
  simp only [smul_eq_mul]
  ring

theorem quad_discr : Algebra.discr ℚ (powers (quad b c) 2) = ((b ^ 2 - 4 * c : ℤ) : ℚ) := by
  rw [Algebra.discr_def, Matrix.det_fin_two]
  simp only [Algebra.traceMatrix_apply, Algebra.traceForm_apply, powers, Fin.val_zero, Fin.val_one, pow_zero, pow_one, one_mul, mul_one]
  rw [← pow_two, trace_one, trace_gen, trace_gen_sq]
  push_cast
  ring

theorem quad_total : MinPolyTotal (quad b c) := fun a =>
  pqMinPoly_total (irr_ne _) (irr_pos _) (quad_natDegree b c).le a

end

/-! ## A prime that does not fit into 64 bits -/

/-- repeated squaring modulo `P` -/
def sqIter (P : Nat) : Nat → Nat → Nat
  | 0, x => x
  | k + 1, x => sqIter P k (x * x % P)

theorem sqIter_val (P k x : Nat) : (sqIter P k x : ZMod P) = (x : ZMod P) ^ 2 ^ k := by
  induction k generalizing x with
  | zero => simp [sqIter]
  | succ k ih =>
    rw [sqIter, ih, ZMod.natCast_mod, Nat.cast_mul, ← pow_two, ← pow_mul, pow_succ, mul_comm 2]

theorem big_prime : Nat.Prime 221360928884514619393 := by
  have hne : ∀ a b : Nat, a < 221360928884514619393 → b < 221360928884514619393 → a ≠ b → (a : ZMod 221360928884514619393) ≠ b := by
    intro a b ha hb hab h
    exact hab (Nat.ModEq.eq_of_lt_of_lt ((ZMod.natCast_eq_natCast_iff _ _ _).1 h) ha hb)
  refine lucas_primality _ 10 ?_ ?_
  · have e : (10 : ZMod 221360928884514619393) ^ (221360928884514619393 - 1) = ((1000 : ℕ) : ZMod 221360928884514619393) ^ 2 ^ 66 := by
      rw [show (221360928884514619393 - 1 : ℕ) = 3 * 2 ^ 66 by norm_num, pow_mul]
      norm_num
    rw [e, ← sqIter_val, show sqIter 221360928884514619393 66 1000 = 1 by decide +kernel, Nat.cast_one]
  · intro q hq hd
    have h1 : q = 2 ∨ q = 3 := by
      have : (221360928884514619393 - 1 : ℕ) = 2 ^ 66 * 3 := by norm_num
      rw [this] at hd
      rcases (Nat.Prime.dvd_mul hq).1 hd with h | h
      · exact .inl ((Nat.prime_dvd_prime_iff_eq hq Nat.prime_two).1 (hq.dvd_of_dvd_pow h))
      · exact .inr ((Nat.prime_dvd_prime_iff_eq hq Nat.prime_three).1 h)
    rcases h1 with rfl | rfl
    · have e : (10 : ZMod 221360928884514619393) ^ ((221360928884514619393 - 1) / 2) = ((1000 : ℕ) : ZMod 221360928884514619393) ^ 2 ^ 65 := by
        rw [show ((221360928884514619393 - 1) / 2 : ℕ) = 3 * 2 ^ 65 by norm_num, pow_mul]
        norm_num
      rw [e, ← sqIter_val, show sqIter 221360928884514619393 65 1000 = 221360928884514619392 by decide +kernel, ← Nat.cast_one]
      exact hne _ _ (by norm_num) (by norm_num) (by norm_num)
    · have e : (10 : ZMod 221360928884514619393) ^ ((221360928884514619393 - 1) / 3) = ((10 : ℕ) : ZMod 221360928884514619393) ^ 2 ^ 66 := by
        rw [show ((221360928884514619393 - 1) / 3 : ℕ) = 2 ^ 66 by norm_num]
        norm_num
      rw [e, ← sqIter_val, ← Nat.cast_one]
      refine hne _ _ ?_ (by norm_num) ?_ <;> decide +kernel

/-- `1 + 4 · 3 · 2^64` -/
def bigPrime : Nat := 221360928884514619393

theorem bigPrime_prime : bigPrime.Prime := big_prime

/-- the quadratic polynomial `x² - x - 3·2^64` of discriminant `bigPrime` is irreducible -/
theorem bigQuad_irreducible : Irreducible (qp (quad (-1) (-(3 * 2 ^ 64)))) := by
  have hm := quad_monic (-1) (-(3 * 2 ^ 64))
  rw [Polynomial.irreducible_iff_roots_eq_zero_of_degree_le_three (by rw [quad_natDegree]) (by rw [quad_natDegree]; norm_num)]
  refine Multiset.eq_zero_of_forall_notMem fun x hx => ?_
  rw [mem_roots hm.ne_zero, IsRoot.def, quad_val] at hx
  simp only [eval_add, eval_mul, eval_pow, eval_X, eval_C] at hx
  have h1 : (2 * x - 1) ^ 2 = ((bigPrime : ℕ) : ℚ) := by
    unfold bigPrime
    push_cast at hx ⊢
    linear_combination 4 * hx
  have h2 : IsSquare ((bigPrime : ℕ) : ℚ) := ⟨2 * x - 1, by rw [← h1]; ring⟩
  rw [Rat.isSquare_natCast_iff] at h2
  exact bigPrime_prime.prime.not_isSquare h2

theorem searchPrimes_big {f : List ℚ} {n : Nat} {g : List (List ℚ)} (p : Int) (k : Nat) (L : List (Int × Nat)) (hp : machineRange ≤ p.natAbs) :
    searchPrimes f n g ((p, k) :: L) = none := by
  rw [searchPrimes]
  unfold natToUsize
  rw [if_neg (by omega)]
  by_cases h0 : 0 ≤ p
  · simp only [h0, decide_true, assertThat, if_true, Option.bind_eq_bind, Option.bind_some, Option.bind_none]
  · simp [h0, assertThat]

theorem bigQuad_none (isPrime : Nat → Option Bool) (hP : Props.Natural.PrimalitySound isPrime) :
    computeIntegralBasis isPrime (quad (-1) (-(3 * 2 ^ 64))) = none := by
  haveI : Fact (Irreducible (qp (quad (-1) (-(3 * 2 ^ 64))))) := ⟨bigQuad_irreducible⟩
  cases e : computeIntegralBasis isPrime (quad (-1) (-(3 * 2 ^ 64))) with
  | none => rfl
  | some l =>
    exfalso
    unfold computeIntegralBasis at e
    rw [ratOps_models.pqDegree _ (irr_ne _)] at e
    simp only [Option.bind_eq_bind, Option.bind_some, Option.bind_eq_some_iff] at e
    obtain ⟨g, g1, g2⟩ := e
    rw [quad_natDegree] at g1 g2
    obtain ⟨m, hm⟩ := start_spec g1
    have hd := hm.discr (gen_integral _ _)
    rw [quad_discr] at hd
    have hI := hm.inv (quad_natDegree _ _)
    obtain ⟨h0, e2⟩ := searchStep_eq isPrime (quad_natDegree _ _) hI hd.symm
    rw [searchLoop.eq_def, e2] at g2
    cases er : intFactor isPrime ((-1) ^ 2 - 4 * (-(3 * 2 ^ 64))) with
    | none => rw [er] at g2; cases g2
    | some r =>
      obtain ⟨F, rfl, F2, F3⟩ := intFactor_facts isPrime hP h0 er
      have hbig : ((-1) ^ 2 - 4 * (-(3 * 2 ^ 64)) : ℤ) = (bigPrime : ℕ) := by unfold bigPrime; norm_num
      obtain ⟨k, k1, k2⟩ := F3 bigPrime 1 bigPrime_prime (by norm_num) (by rw [hbig, pow_one])
      have hall : ∀ pk ∈ F.factors, pk.1 = (bigPrime : ℕ) := by
        intro pk hpk
        obtain ⟨p, p1, p2, p3⟩ := F2 pk hpk
        rw [p3]
        rw [hbig] at p2
        have : p ∣ bigPrime := by exact_mod_cast p2
        rw [(Nat.prime_dvd_prime_iff_eq p1 bigPrime_prime).1 this]
      have hsort : ∃ k L, sortByPrime F.factors = (((bigPrime : ℕ) : ℤ), k) :: L := by
        cases es : sortByPrime F.factors with
        | nil =>
          have : (((bigPrime : ℕ) : ℤ), k) ∈ sortByPrime F.factors := List.mem_mergeSort.2 k2
          rw [es] at this
          simp at this
        | cons pk L =>
          have hmem : pk ∈ F.factors := List.mem_mergeSort.1 (show pk ∈ sortByPrime F.factors by rw [es]; simp)
          exact ⟨pk.2, L, by rw [← hall pk hmem]⟩
      obtain ⟨k', L, hs⟩ := hsort
      rw [er] at g2
      simp only [Option.bind_some, hs] at g2
      rw [searchPrimes_big _ _ _ (by decide)] at g2
      cases g2

end Verif.Anf
