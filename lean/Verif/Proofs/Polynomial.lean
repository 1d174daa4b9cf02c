import Verif.Spec.Polynomial
import Verif.Proofs.Structure
import Mathlib.Algebra.Polynomial.Eval.Defs
import Mathlib.Algebra.Polynomial.Eval.Coeff
import Mathlib.Algebra.Polynomial.Coeff
import Mathlib.Algebra.Polynomial.Derivative
import Mathlib.Algebra.Polynomial.Reverse
import Mathlib.Algebra.Polynomial.Monic
import Mathlib.Algebra.Polynomial.RingDivision
import Mathlib.Algebra.Polynomial.FieldDivision
import Mathlib.Data.List.GetD

namespace Verif.Rings

open Polynomial

section Val
variable {α R : Type} [Semiring R] (v : α → R)

@[simp] theorem polyVal_nil : polyVal v [] = 0 := rfl

@[simp] theorem polyVal_cons (c : α) (p : List α) : polyVal v (c :: p) = C (v c) + X * polyVal v p := rfl

theorem polyVal_const (c : α) : polyVal v (polyConst c) = C (v c) := by simp [polyConst]

theorem coeff_polyVal (z : α) (hz : v z = 0) (p : List α) (i : Nat) :
    (polyVal v p).coeff i = v (p.getD i z) := by
  induction p generalizing i with
  | nil => simp [hz]
  | cons c p ih =>
    cases i with
    | zero => simp
    | succ i => simp [coeff_C_succ, coeff_X_mul, ih]

theorem coeff_polyVal_ge (p : List α) (i : Nat) (h : p.length ≤ i) : (polyVal v p).coeff i = 0 := by
  induction p generalizing i with
  | nil => simp
  | cons c p ih =>
    cases i with
    | zero => simp at h
    | succ i => simp [coeff_C_succ, coeff_X_mul, ih i (by simpa using h)]

theorem polyVal_append (p q : List α) : polyVal v (p ++ q) = polyVal v p + X ^ p.length * polyVal v q := by
  induction p with
  | nil => simp
  | cons c p ih => simp only [List.cons_append, polyVal_cons, ih, List.length_cons, pow_succ']; rw [mul_add, add_assoc, mul_assoc]

theorem polyVal_replicate (n : Nat) (z : α) (hz : v z = 0) : polyVal v (List.replicate n z) = 0 := by
  induction n with
  | zero => rfl
  | succ n ih => simp [List.replicate_succ, ih, hz]

theorem polyVal_ext (z : α) (hz : v z = 0) (p : List α) (f : R[X])
    (h : ∀ i, v (p.getD i z) = f.coeff i) : polyVal v p = f := by
  ext i; rw [coeff_polyVal v z hz, h]

theorem coeff_polyVal_lt (p : List α) (i : Nat) (h : i < p.length) : (polyVal v p).coeff i = v p[i] := by
  induction p generalizing i with
  | nil => simp at h
  | cons c p ih =>
    cases i with
    | zero => simp
    | succ i => simp [coeff_C_succ, coeff_X_mul, ih i (by simpa using h)]

theorem polyVal_range_map (n : Nat) (g : Nat → α) (f : R[X]) (h : ∀ i < n, v (g i) = f.coeff i)
    (h' : ∀ i, n ≤ i → f.coeff i = 0) : polyVal v ((List.range n).map g) = f := by
  ext i
  by_cases hi : i < n
  · rw [← h i hi, coeff_polyVal_lt _ _ _ (by simpa using hi)]; simp
  · rw [coeff_polyVal_ge _ _ _ (by simpa using hi), h' i (by omega)]

theorem polyVal_set (p : List α) (i : Nat) (x : α) (hi : i < p.length) (z : α) (f : R[X])
    (hf : polyVal v p = f) (y : R) (hx : v x = v (p.getD i z) + y) :
    polyVal v (p.set i x) = f + C y * X ^ i := by
  subst hf
  ext j
  rw [coeff_add, coeff_C_mul, coeff_X_pow]
  by_cases hj : j < p.length
  · rw [coeff_polyVal_lt _ _ _ (by simpa using hj), coeff_polyVal_lt _ _ _ hj, List.getElem_set]
    by_cases hij : i = j
    · subst hij
      rw [if_pos rfl, hx, List.getD_eq_getElem _ _ hi]; simp
    · rw [if_neg hij, if_neg (by omega)]; simp
  · rw [coeff_polyVal_ge _ _ _ (by simpa using hj), coeff_polyVal_ge _ _ _ (by omega), if_neg (by omega)]; simp

theorem polyVal_map {β T : Type} [Semiring T] (w : β → T) (g : α → β) (φ : R →+* T)
    (h : ∀ c, w (g c) = φ (v c)) (p : List α) : polyVal w (p.map g) = (polyVal v p).map φ := by
  induction p with
  | nil => simp
  | cons c p ih => simp [ih, h]

end Val

section Semi
variable {α R : Type} [Semiring R] {S : SemiRingOps α} {v : α → R} (h : S.Models v)
include h

theorem SemiRingOps.Models.polyCoeff (p : List α) (i : Nat) : v (S.polyCoeff p i) = (polyVal v p).coeff i :=
  (coeff_polyVal v S.zero h.zero p i).symm

theorem SemiRingOps.Models.polyReduce (p : List α) : polyVal v (S.polyReduce p) = polyVal v p := by
  induction hn : p.length generalizing p with
  | zero => rw [List.length_eq_zero_iff] at hn; subst hn; rw [SemiRingOps.polyReduce]
  | succ n ih =>
    match p with
    | [] => simp at hn
    | x :: t =>
      rw [SemiRingOps.polyReduce]
      split
      · rename_i hz
        rw [ih _ (by simpa using hn)]
        conv_rhs => rw [← List.dropLast_append_getLast (List.cons_ne_nil x t)]
        rw [polyVal_append]
        rw [h.equal, h.zero] at hz
        simp [hz]
      · rfl

theorem SemiRingOps.Models.polyReduce_reduced (p : List α) : PolyReduced v (S.polyReduce p) := by
  induction hn : p.length generalizing p with
  | zero => rw [List.length_eq_zero_iff] at hn; subst hn; rw [SemiRingOps.polyReduce]; intro c hc; simp at hc
  | succ n ih =>
    match p with
    | [] => simp at hn
    | x :: t =>
      rw [SemiRingOps.polyReduce]
      split
      · exact ih _ (by simpa using hn)
      · rename_i hz
        rw [h.equal, h.zero] at hz
        intro c hc
        rw [List.getLast?_eq_some_getLast (List.cons_ne_nil x t)] at hc
        rw [← Option.some.inj hc]; exact hz

theorem SemiRingOps.Models.polyEqual (a b : List α) : S.polyEqual a b = true ↔ polyVal v a = polyVal v b := by
  rw [SemiRingOps.polyEqual, List.all_eq_true]
  constructor
  · intro hh
    ext i
    by_cases hi : i < max a.length b.length
    · have := hh i (List.mem_range.2 hi)
      rwa [h.equal, h.polyCoeff, h.polyCoeff] at this
    · rw [coeff_polyVal_ge _ _ _ (by omega), coeff_polyVal_ge _ _ _ (by omega)]
  · intro hh i _
    rw [h.equal, h.polyCoeff, h.polyCoeff, hh]

theorem SemiRingOps.Models.polyAdd (a b : List α) : polyVal v (S.polyAdd a b) = polyVal v a + polyVal v b := by
  rw [SemiRingOps.polyAdd, h.polyReduce]
  apply polyVal_range_map
  · intro i _
    rw [h.add, h.polyCoeff, h.polyCoeff, coeff_add]
  · intro i hi
    rw [coeff_add, coeff_polyVal_ge _ _ _ (by omega), coeff_polyVal_ge _ _ _ (by omega), add_zero]

theorem SemiRingOps.Models.polyMulRow_take (a b : List α) (coeffs : List α) (i : Nat) (hi : i < a.length)
    (hl : coeffs.length = a.length + b.length) (m : Nat) (hm : m ≤ b.length) :
    ((List.range m).foldl (S.polyMulStep a b i) coeffs).length = a.length + b.length ∧
    polyVal v ((List.range m).foldl (S.polyMulStep a b i) coeffs)
      = polyVal v coeffs + C (v (a.getD i S.zero)) * X ^ i * polyVal v (b.take m) := by
  induction m with
  | zero => simp [hl]
  | succ m ih =>
    obtain ⟨h1, h2⟩ := ih (by omega)
    rw [List.range_succ, List.foldl_append, List.foldl_cons, List.foldl_nil]
    generalize (List.range m).foldl (S.polyMulStep a b i) coeffs = co at h1 h2
    refine ⟨by simp [SemiRingOps.polyMulStep, h1], ?_⟩
    rw [SemiRingOps.polyMulStep, polyVal_set v co (i + m) _ (by omega) S.zero _ h2
      (v (a.getD i S.zero) * v (b.getD m S.zero)) (by rw [h.add, h.mul])]
    have e : b.take (m + 1) = b.take m ++ [b.getD m S.zero] := by
      rw [List.take_succ_eq_append_getElem (by omega), List.getD_eq_getElem _ _ (by omega)]
    rw [e, polyVal_append]
    simp only [polyVal_cons, polyVal_nil, mul_zero, add_zero, List.length_take, Nat.min_eq_left (show m ≤ b.length by omega)]
    rw [mul_add, add_assoc]
    congr 2
    rw [mul_assoc (C _) (X ^ i), ← mul_assoc (X ^ i), ← pow_add, (commute_X_pow _ _).eq, ← mul_assoc, C_mul]

theorem SemiRingOps.Models.polyMul_take (a b : List α) (m : Nat) (hm : m ≤ a.length) :
    ((List.range m).foldl (S.polyMulRow a b) (List.replicate (a.length + b.length) S.zero)).length
      = a.length + b.length ∧
    polyVal v ((List.range m).foldl (S.polyMulRow a b) (List.replicate (a.length + b.length) S.zero))
      = polyVal v (a.take m) * polyVal v b := by
  induction m with
  | zero => simp [polyVal_replicate _ _ _ h.zero]
  | succ m ih =>
    obtain ⟨h1, h2⟩ := ih (by omega)
    rw [List.range_succ, List.foldl_append, List.foldl_cons, List.foldl_nil]
    generalize (List.range m).foldl (S.polyMulRow a b) (List.replicate (a.length + b.length) S.zero) = co at h1 h2
    obtain ⟨h3, h4⟩ := h.polyMulRow_take a b co m (by omega) h1 b.length le_rfl
    refine ⟨h3, ?_⟩
    rw [SemiRingOps.polyMulRow, h4, h2, List.take_length]
    have e : a.take (m + 1) = a.take m ++ [a.getD m S.zero] := by
      rw [List.take_succ_eq_append_getElem (by omega), List.getD_eq_getElem _ _ (by omega)]
    rw [e, polyVal_append, add_mul]
    simp only [polyVal_cons, polyVal_nil, mul_zero, add_zero, List.length_take, Nat.min_eq_left (show m ≤ a.length by omega)]
    rw [(commute_X_pow _ _).eq]

theorem SemiRingOps.Models.polyMul (a b : List α) : polyVal v (S.polyMul a b) = polyVal v a * polyVal v b := by
  rw [SemiRingOps.polyMul, h.polyReduce, (h.polyMul_take a b a.length le_rfl).2, List.take_length]

theorem SemiRingOps.Models.polyVal_surj (f : R[X]) : ∃ p, polyVal v p = f := by
  choose g hg using h.surj
  refine ⟨(List.range (f.natDegree + 1)).map fun i => g (f.coeff i), ?_⟩
  apply polyVal_range_map
  · intro i _; rw [hg]
  · intro i hi; exact coeff_eq_zero_of_natDegree_lt (by omega)

theorem SemiRingOps.Models.poly : S.poly.Models (polyVal v) where
  equal := h.polyEqual
  zero := rfl
  one := by simp [SemiRingOps.poly, h.one]
  add := h.polyAdd
  mul := h.polyMul
  surj := h.polyVal_surj

theorem SemiRingOps.Models.polyVar : polyVal v S.polyVar = X := by
  simp [SemiRingOps.polyVar, h.zero, h.one]

theorem SemiRingOps.Models.polyConstVarPow (x : α) (n : Nat) : polyVal v (S.polyConstVarPow x n) = C (v x) * X ^ n := by
  apply polyVal_range_map
  · intro i hi
    rw [coeff_C_mul, coeff_X_pow]
    by_cases hn : i < n
    · rw [if_pos hn, if_neg (by omega), h.zero, mul_zero]
    · rw [if_neg hn, if_pos (by omega), mul_one]
  · intro i hi
    rw [coeff_C_mul, coeff_X_pow, if_neg (by omega), mul_zero]

theorem SemiRingOps.Models.polyVarPow (n : Nat) : polyVal v (S.polyVarPow n) = X ^ n := by
  have := h.polyConstVarPow S.one n
  rw [h.one, C_1, one_mul] at this
  exact this

omit h in
theorem polyVal_natDegree_lt (p : List α) (hp : polyVal v p ≠ 0) : (polyVal v p).natDegree < p.length := by
  by_contra hc
  exact hp (leadingCoeff_eq_zero.1 (coeff_polyVal_ge v p _ (by omega)))

theorem SemiRingOps.Models.polyDegree_some (p : List α) (hp : polyVal v p ≠ 0) :
    S.polyDegree p = some (polyVal v p).natDegree := by
  rw [SemiRingOps.polyDegree, List.find?_eq_some_iff_getElem]
  have hlt := polyVal_natDegree_lt (v := v) p hp
  have key (i : Nat) : S.isZero (p.getD i S.zero) = true ↔ (polyVal v p).coeff i = 0 := by
    rw [h.isZero, ← coeff_polyVal v S.zero h.zero]
  refine ⟨?_, p.length - 1 - (polyVal v p).natDegree, by simp; omega, ?_, ?_⟩
  · rw [Bool.not_eq_true', ← Bool.not_eq_true, key]
    exact fun hh => hp (leadingCoeff_eq_zero.1 hh)
  · simp; omega
  · intro j hj
    simp only [List.getElem_reverse, List.length_range, List.getElem_range, Bool.not_not]
    rw [key]
    exact coeff_eq_zero_of_natDegree_lt (by omega)

theorem SemiRingOps.Models.polyDegree_none (p : List α) (hp : polyVal v p = 0) : S.polyDegree p = none := by
  rw [SemiRingOps.polyDegree, List.find?_eq_none]
  intro i _
  rw [Bool.not_eq_true', ← Bool.not_eq_true, h.isZero, ← coeff_polyVal v S.zero h.zero, hp]
  simp

theorem SemiRingOps.Models.polyNumCoeffs_ne (p : List α) (hp : polyVal v p ≠ 0) :
    S.polyNumCoeffs p = (polyVal v p).natDegree + 1 := by
  rw [SemiRingOps.polyNumCoeffs, h.polyDegree_some p hp]

theorem SemiRingOps.Models.polyNumCoeffs_zero (p : List α) (hp : polyVal v p = 0) : S.polyNumCoeffs p = 0 := by
  rw [SemiRingOps.polyNumCoeffs, h.polyDegree_none p hp]

theorem SemiRingOps.Models.polyNumCoeffs_eq_zero (p : List α) : S.polyNumCoeffs p = 0 ↔ polyVal v p = 0 := by
  by_cases hp : polyVal v p = 0
  · simp [h.polyNumCoeffs_zero p hp, hp]
  · simp [h.polyNumCoeffs_ne p hp, hp]

theorem SemiRingOps.Models.polyLeadingCoeff_some (p : List α) (hp : polyVal v p ≠ 0) :
    ∃ c, S.polyLeadingCoeff p = some c ∧ v c = (polyVal v p).leadingCoeff := by
  refine ⟨p.getD (polyVal v p).natDegree S.zero, by rw [SemiRingOps.polyLeadingCoeff, h.polyDegree_some p hp]; rfl, ?_⟩
  rw [← coeff_polyVal v S.zero h.zero]; rfl

theorem SemiRingOps.Models.polyLeadingCoeff_none (p : List α) (hp : polyVal v p = 0) : S.polyLeadingCoeff p = none := by
  rw [SemiRingOps.polyLeadingCoeff, h.polyDegree_none p hp]; rfl

theorem SemiRingOps.Models.polyEvaluate (p : List α) (x : α) :
    v (S.polyEvaluate p x) = (polyVal v p).eval (v x) := by
  rw [SemiRingOps.polyEvaluate, List.foldl_reverse]
  induction p with
  | nil => simp [h.zero]
  | cons c p ih =>
    rw [List.foldr_cons, h.add, h.mul, ih, polyVal_cons, eval_add, eval_C, X_mul, eval_mul_X, add_comm]

theorem SemiRingOps.Models.polyCompose (p q : List α) :
    polyVal v (S.polyCompose p q) = (polyVal v p).comp (polyVal v q) := by
  rw [SemiRingOps.polyCompose, h.poly.polyEvaluate,
    polyVal_map v (polyVal v) polyConst C (polyVal_const v), comp, eval_map]

theorem SemiRingOps.Models.polyMulVarPow (p : List α) (n : Nat) :
    polyVal v (S.polyMulVarPow p n) = polyVal v p * X ^ n := by
  rw [SemiRingOps.polyMulVarPow, polyVal_append, polyVal_replicate _ _ _ h.zero, zero_add, List.length_replicate,
    (commute_X_pow _ _).eq]

theorem SemiRingOps.Models.polyMulScalar (p : List α) (x : α) :
    polyVal v (S.polyMulScalar p x) = polyVal v p * C (v x) := by
  rw [SemiRingOps.polyMulScalar, h.polyReduce]
  induction p with
  | nil => simp
  | cons c p ih => rw [List.map_cons, polyVal_cons, ih, h.mul, polyVal_cons, add_mul, C_mul, mul_assoc]

theorem SemiRingOps.Models.polyAsConstant_some (p : List α) (c : R) (hp : polyVal v p = C c) :
    ∃ x, S.polyAsConstant p = some x ∧ v x = c := by
  unfold SemiRingOps.polyAsConstant
  by_cases hz : polyVal v p = 0
  · rw [if_pos ((h.polyNumCoeffs_eq_zero p).2 hz)]
    refine ⟨_, rfl, ?_⟩
    rw [h.zero]
    rw [hz] at hp
    exact (C_eq_zero.1 hp.symm).symm
  · rw [if_neg (fun e => hz ((h.polyNumCoeffs_eq_zero p).1 e)), if_pos (by rw [h.polyNumCoeffs_ne p hz, hp, natDegree_C])]
    refine ⟨_, rfl, ?_⟩
    rw [← coeff_polyVal v S.zero h.zero, hp, coeff_C_zero]

theorem SemiRingOps.Models.polyAsConstant_none (p : List α) (hp : ∀ c, polyVal v p ≠ C c) :
    S.polyAsConstant p = none := by
  have hz : polyVal v p ≠ 0 := by have := hp 0; rwa [C_0] at this
  unfold SemiRingOps.polyAsConstant
  rw [if_neg (fun e => hz ((h.polyNumCoeffs_eq_zero p).1 e)), if_neg]
  rw [h.polyNumCoeffs_ne p hz]
  intro e
  exact hp _ (eq_C_of_natDegree_eq_zero (by omega))

theorem SemiRingOps.Models.polyIsMonic (p : List α) (hR : (1 : R) ≠ 0) : S.polyIsMonic p = true ↔ (polyVal v p).Monic := by
  unfold SemiRingOps.polyIsMonic
  by_cases hz : polyVal v p = 0
  · rw [h.polyLeadingCoeff_none p hz, hz, Monic.def, leadingCoeff_zero]
    simpa using hR.symm
  · obtain ⟨c, h1, h2⟩ := h.polyLeadingCoeff_some p hz
    rw [h1]
    simp only
    rw [h.equal, h.one, h2, Monic.def]

omit h in
theorem polyReduced_natDegree (p : List α) (hr : PolyReduced v p) (hne : p ≠ []) :
    polyVal v p ≠ 0 ∧ (polyVal v p).natDegree + 1 = p.length := by
  have hl : p.length ≠ 0 := fun e => hne (List.length_eq_zero_iff.1 e)
  have hc : (polyVal v p).coeff (p.length - 1) ≠ 0 := by
    rw [coeff_polyVal_lt v p _ (by omega)]
    apply hr
    rw [List.getLast?_eq_getElem?, List.getElem?_eq_getElem]
  have hz : polyVal v p ≠ 0 := fun e => hc (by rw [e]; simp)
  refine ⟨hz, ?_⟩
  have := polyVal_natDegree_lt (v := v) p hz
  have := le_natDegree_of_ne_zero hc
  omega

omit h in
theorem polyReduced_zero (p : List α) (hr : PolyReduced v p) (hz : polyVal v p = 0) : p = [] := by
  by_contra hne
  exact (polyReduced_natDegree p hr hne).1 hz

theorem SemiRingOps.Models.derivFold (p : List α) (m : Nat) (hm : m < p.length) :
    ((List.range m).foldl S.polyDerivStep p).length = p.length ∧
    ∀ i, v (((List.range m).foldl S.polyDerivStep p).getD i S.zero)
      = if i < m then v (p.getD (i + 1) S.zero) * ((i + 1 : Nat) : R) else v (p.getD i S.zero) := by
  induction m with
  | zero => simp
  | succ m ih =>
    obtain ⟨h1, h2⟩ := ih (by omega)
    rw [List.range_succ, List.foldl_append, List.foldl_cons, List.foldl_nil]
    generalize (List.range m).foldl S.polyDerivStep p = q at h1 h2
    refine ⟨by simp [SemiRingOps.polyDerivStep, h1], ?_⟩
    intro i
    rw [SemiRingOps.polyDerivStep]
    by_cases hi : i = m
    · subst hi
      rw [List.getD_eq_getElem _ _ (by simp; omega), List.getElem_set_self, if_pos (by omega), h.mul, h2, h.fromNat,
        if_neg (by omega)]
    · have e : (q.set m (S.mul (q.getD (m + 1) S.zero) (S.fromNat (m + 1)))).getD i S.zero = q.getD i S.zero := by
        by_cases hil : i < q.length
        · rw [List.getD_eq_getElem _ _ (by simpa using hil), List.getD_eq_getElem _ _ hil,
            List.getElem_set_ne (by omega)]
        · rw [List.getD_eq_default _ _ (by simpa using hil), List.getD_eq_default _ _ (by omega)]
      rw [e, h2]
      by_cases hlt : i < m
      · rw [if_pos hlt, if_pos (by omega)]
      · rw [if_neg hlt, if_neg (by omega)]

theorem SemiRingOps.Models.polyDerivative (p : List α) :
    polyVal v (S.polyDerivative p) = derivative (polyVal v p) := by
  rw [SemiRingOps.polyDerivative, ← h.polyReduce p]
  have hr := h.polyReduce_reduced p
  generalize S.polyReduce p = p at hr
  rw [SemiRingOps.polyDerivReduced]
  by_cases hz : polyVal v p = 0
  · rw [if_neg (by rw [h.polyNumCoeffs_zero p hz]; omega), hz, derivative_zero]
  · have hne : p ≠ [] := by rintro rfl; exact hz rfl
    obtain ⟨-, hd⟩ := polyReduced_natDegree p hr hne
    rw [h.polyNumCoeffs_ne p hz, if_pos (by omega), Nat.add_sub_cancel]
    obtain ⟨h1, h2⟩ := h.derivFold p (polyVal v p).natDegree (by omega)
    generalize (List.range (polyVal v p).natDegree).foldl S.polyDerivStep p = q at h1 h2
    apply polyVal_ext v S.zero h.zero
    intro i
    rw [coeff_derivative]
    by_cases hi : i < q.dropLast.length
    · have hi' : i < q.length := by simp at hi; omega
      rw [List.getD_eq_getElem _ _ hi, List.getElem_dropLast]
      have := h2 i
      rw [List.getD_eq_getElem _ _ hi', if_pos (by simp at hi; omega)] at this
      rw [this, coeff_polyVal v S.zero h.zero]
      push_cast; rfl
    · rw [List.getD_eq_default _ _ (by omega), h.zero, coeff_eq_zero_of_natDegree_lt (by simp at hi; omega), zero_mul]

theorem SemiRingOps.Models.polyDerivative_reduced (hnz : ∀ n : Nat, ∀ r : R, r * ((n + 1 : Nat) : R) = 0 → r = 0) (p : List α) :
    PolyReduced v (S.polyDerivative p) := by
  rw [SemiRingOps.polyDerivative]
  have hr := h.polyReduce_reduced p
  generalize S.polyReduce p = p at hr
  rw [SemiRingOps.polyDerivReduced]
  by_cases hz : polyVal v p = 0
  · rw [if_neg (by rw [h.polyNumCoeffs_zero p hz]; omega)]; exact hr
  · have hne : p ≠ [] := by rintro rfl; exact hz rfl
    obtain ⟨-, hd⟩ := polyReduced_natDegree p hr hne
    rw [h.polyNumCoeffs_ne p hz, if_pos (by omega), Nat.add_sub_cancel]
    obtain ⟨h1, h2⟩ := h.derivFold p (polyVal v p).natDegree (by omega)
    generalize (List.range (polyVal v p).natDegree).foldl S.polyDerivStep p = q at h1 h2
    intro c hc
    rw [List.getLast?_eq_getElem?] at hc
    obtain ⟨hl, rfl⟩ := List.getElem?_eq_some_iff.1 hc
    rw [List.getElem_dropLast]
    intro e
    have hl' : q.dropLast.length - 1 < q.length := by simp at hl ⊢; omega
    have := h2 (q.dropLast.length - 1)
    rw [List.getD_eq_getElem _ _ hl', e, if_pos (by simp at hl ⊢; omega)] at this
    have hd1 : q.dropLast.length - 1 + 1 = (polyVal v p).natDegree := by simp at hl ⊢; omega
    have h0 := hnz _ _ this.symm
    rw [hd1, ← coeff_polyVal v S.zero h.zero] at h0
    exact hz (leadingCoeff_eq_zero.1 h0)

end Semi

theorem coeff_polyReversed {α R : Type} [Semiring R] (v : α → R) (p : List α) (i : Nat) (hi : i < p.length) :
    (polyVal v (polyReversed p)).coeff i = (polyVal v p).coeff (p.length - 1 - i) := by
  rw [coeff_polyVal_lt _ _ _ (by simpa [polyReversed] using hi), coeff_polyVal_lt _ _ _ (by omega)]
  simp [polyReversed]

/-- The reversal `x^n p(1/x)` of a reduced representative. -/
theorem polyReversed_spec {α R : Type} [Semiring R] (v : α → R) (p : List α) (hr : PolyReduced v p) :
    polyVal v (polyReversed p) = (polyVal v p).reflect (polyVal v p).natDegree := by
  by_cases hne : p = []
  · subst hne; simp [polyReversed]
  obtain ⟨h1, h2⟩ := polyReduced_natDegree p hr hne
  ext i
  rw [coeff_reflect]
  by_cases hi : i < p.length
  · rw [coeff_polyReversed v p i hi, revAt_le (by omega)]
    congr 1; omega
  · rw [coeff_polyVal_ge _ _ _ (by simpa [polyReversed] using hi), revAt_eq_self_of_lt (by omega),
      coeff_polyVal_ge _ _ _ (by omega)]

section Ring
variable {α R : Type} [Ring R] {S : RingOps α} {v : α → R} (h : S.Models v)
include h

theorem RingOps.Models.polyNeg (a : List α) : polyVal v (S.polyNeg a) = -polyVal v a := by
  induction a with
  | nil => simp [RingOps.polyNeg]
  | cons c p ih =>
    rw [RingOps.polyNeg] at ih ⊢
    rw [List.map_cons, polyVal_cons, ih, h.neg, polyVal_cons]; simp [add_comm]

theorem RingOps.Models.poly : S.poly.Models (polyVal v) where
  toSemi := h.toSemi.poly
  neg := h.polyNeg

end Ring
end Verif.Rings
