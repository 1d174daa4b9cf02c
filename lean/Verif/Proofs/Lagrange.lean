import Verif.Proofs.PolyDivision
import Mathlib.Algebra.BigOperators.Intervals
import Mathlib.LinearAlgebra.Lagrange

namespace Verif.Rings

open Polynomial

theorem prod_map_range' {M : Type} [CommMonoid M] (a k : Nat) (f : Nat → M) :
    ((List.range' a k).map f).prod = ∏ j ∈ Finset.Ico a (a + k), f j := by
  induction k with
  | zero => simp
  | succ k ih =>
    rw [List.range'_concat, List.map_append, List.prod_append, ih, ← Nat.add_assoc, Finset.prod_Ico_succ_top (by omega)]
    simp

theorem prod_map_range {M : Type} [CommMonoid M] (k : Nat) (f : Nat → M) :
    ((List.range k).map f).prod = ∏ j ∈ Finset.range k, f j := by
  rw [List.range_eq_range', prod_map_range', Nat.zero_add, Finset.range_eq_Ico]

theorem foldl_mul_gen {β M : Type} [CommMonoid M] (val : β → M) (step : β → Nat → β) (g : Nat → M) (l : List Nat)
    (hs : ∀ b, ∀ j ∈ l, val (step b j) = val b * g j) (b : β) :
    val (l.foldl step b) = val b * (l.map g).prod := by
  induction l generalizing b with
  | nil => simp
  | cons j l ih =>
    rw [List.foldl_cons, ih (fun b j hj => hs b j (List.mem_cons_of_mem _ hj)), hs b j List.mem_cons_self, List.map_cons,
      List.prod_cons, mul_assoc]

theorem pair_prod_split {M : Type} [CommMonoid M] (n l : Nat) (hl : l < n) (g : Nat → Nat → M) :
    (∏ j ∈ Finset.Ico (l + 1) n, g l j) * (∏ j ∈ Finset.range l, g j l) *
      (∏ i ∈ Finset.range n, ∏ j ∈ Finset.Ico (i + 1) n, if l ≠ i ∧ l ≠ j then g i j else 1)
      = ∏ i ∈ Finset.range n, ∏ j ∈ Finset.Ico (i + 1) n, g i j := by
  have key : ∀ i ∈ Finset.range n, (∏ j ∈ Finset.Ico (i + 1) n, g i j)
      = (if i = l then ∏ j ∈ Finset.Ico (l + 1) n, g l j else 1) * (if i < l then g i l else 1) *
        ∏ j ∈ Finset.Ico (i + 1) n, if l ≠ i ∧ l ≠ j then g i j else 1 := by
    intro i hi
    by_cases hil : i = l
    · subst hil
      rw [if_pos rfl, if_neg (by omega)]
      simp
    · rw [if_neg hil, one_mul]
      have e : (if i < l then g i l else 1) = ∏ j ∈ Finset.Ico (i + 1) n, if j = l then g i j else 1 := by
        rw [Finset.prod_ite_eq']
        by_cases hlt : i < l
        · rw [if_pos hlt, if_pos (by simp; omega)]
        · rw [if_neg hlt, if_neg (by simp; omega)]
      rw [e, ← Finset.prod_mul_distrib]
      refine Finset.prod_congr rfl fun j _ => ?_
      by_cases hj : j = l
      · subst hj; simp
      · rw [if_neg hj, one_mul, if_pos ⟨fun e => hil e.symm, fun e => hj e.symm⟩]
  rw [Finset.prod_congr rfl key, Finset.prod_mul_distrib, Finset.prod_mul_distrib]
  congr 2
  · rw [Finset.prod_ite_eq', if_pos (by simpa using hl)]
  · rw [← Finset.prod_filter]
    refine Finset.prod_congr ?_ fun _ _ => rfl
    ext i; simp; omega

section
variable {α R : Type} [CommRing R] {S : DomainOps α} {v : α → R} (h : S.Models v) (pts : List (α × α))

/-- The abscissa of the `j`-th point. -/
abbrev xOf (S : DomainOps α) (v : α → R) (j : Nat) : R := v (pts.getD j (S.zero, S.zero)).1

/-- The ordinate of the `j`-th point. -/
abbrev yOf (S : DomainOps α) (v : α → R) (j : Nat) : R := v (pts.getD j (S.zero, S.zero)).2

/-- The denominator, as an element of `R`. -/
noncomputable def lagD (S : DomainOps α) (v : α → R) : R :=
  ∏ i ∈ Finset.range pts.length, ∏ j ∈ Finset.Ico (i + 1) pts.length, (xOf pts S v i - xOf pts S v j)

include h

theorem lagrangeDen_val : polyVal v (S.lagrangeDen pts) = C (lagD pts S v) := by
  rw [RingOps.lagrangeDen, foldl_mul_gen (polyVal v) _
    (fun i => C (∏ j ∈ Finset.Ico (i + 1) pts.length, (xOf pts S v i - xOf pts S v j)))]
  · rw [prod_map_range, lagD, map_prod]; simp [h.one]
  · intro b i hi
    rw [RingOps.lagrangeDenRow, foldl_mul_gen (polyVal v) _ (fun j => C (xOf pts S v i - xOf pts S v j)),
      prod_map_range', map_prod, Nat.add_sub_cancel' (by simpa using hi)]
    intro b j _
    rw [h.toSemi.polyMul, polyVal_const, h.add, h.neg]
    congr 2; ring

theorem lagrangeTerm_val (i : Nat) (hi : i < pts.length) : polyVal v (S.lagrangeTerm pts i)
    = C (yOf pts S v i) * (∏ j ∈ Finset.Ico (i + 1) pts.length, (X - C (xOf pts S v j))) *
      (∏ j ∈ Finset.range i, (C (xOf pts S v j) - X)) *
      ∏ j ∈ Finset.range pts.length, ∏ k ∈ Finset.Ico (j + 1) pts.length,
        if i ≠ j ∧ i ≠ k then C (xOf pts S v j) - C (xOf pts S v k) else 1 := by
  rw [RingOps.lagrangeTerm]
  rw [foldl_mul_gen (polyVal v) (S.lagrangeRow pts i) (fun j => ∏ k ∈ Finset.Ico (j + 1) pts.length,
        if i ≠ j ∧ i ≠ k then C (xOf pts S v j) - C (xOf pts S v k) else 1),
    foldl_mul_gen (polyVal v) (S.lagrangeDown pts) (fun j => C (xOf pts S v j) - X),
    foldl_mul_gen (polyVal v) (S.lagrangeUp pts) (fun j => X - C (xOf pts S v j)), prod_map_range, prod_map_range,
    prod_map_range', polyVal_const, Nat.add_sub_cancel' (by omega)]
  · intro b j _
    rw [RingOps.lagrangeUp, h.toSemi.polyMul]
    simp only [polyVal_cons, polyVal_nil, h.neg, h.one, C_1, mul_zero, add_zero, mul_one, C_neg]
    ring
  · intro b j _
    rw [RingOps.lagrangeDown, h.toSemi.polyMul]
    simp only [polyVal_cons, polyVal_nil, h.neg, h.one, C_1, mul_zero, add_zero, C_neg]
    ring
  · intro b j hj
    rw [RingOps.lagrangeRow, foldl_mul_gen (polyVal v) _
      (fun k => if i ≠ j ∧ i ≠ k then C (xOf pts S v j) - C (xOf pts S v k) else 1), prod_map_range',
      Nat.add_sub_cancel' (by simpa using hj)]
    intro b k _
    rw [RingOps.lagrangePair]
    split
    · rw [h.toSemi.polyMul, polyVal_const, h.add, h.neg, ← C_sub]
      congr 2; ring
    · rw [mul_one]

theorem lagrangeNum_val : polyVal v (S.lagrangeNum pts)
    = ∑ i ∈ Finset.range pts.length, polyVal v (S.lagrangeTerm pts i) := by
  rw [RingOps.lagrangeNum]
  have : ∀ m, polyVal v ((List.range m).foldl (fun num i => S.polyAdd num (S.lagrangeTerm pts i)) [])
      = ∑ i ∈ Finset.range m, polyVal v (S.lagrangeTerm pts i) := by
    intro m
    induction m with
    | zero => simp
    | succ m ih =>
      rw [List.range_succ, List.foldl_append, List.foldl_cons, List.foldl_nil, h.toSemi.polyAdd, ih,
        Finset.sum_range_succ]
  exact this _

theorem lagrangeTerm_eval (i l : Nat) (hi : i < pts.length) (hl : l < pts.length) :
    (polyVal v (S.lagrangeTerm pts i)).eval (xOf pts S v l) = if i = l then yOf pts S v l * lagD pts S v else 0 := by
  rw [lagrangeTerm_val h pts i hi]
  simp only [eval_mul, eval_C, eval_prod, eval_sub, eval_X]
  by_cases hil : i = l
  · subst hil
    rw [if_pos rfl, lagD, ← pair_prod_split pts.length i hi (fun i j => xOf pts S v i - xOf pts S v j), ← mul_assoc,
      ← mul_assoc]
    congr 1
    refine Finset.prod_congr rfl fun j _ => Finset.prod_congr rfl fun k _ => ?_
    split <;> simp
  · rw [if_neg hil]
    rcases Nat.lt_or_gt_of_ne hil with hlt | hgt
    · rw [Finset.prod_eq_zero (i := l) (s := Finset.Ico (i + 1) pts.length) (by simp; omega) (by simp)]; simp
    · rw [Finset.prod_eq_zero (i := l) (s := Finset.range i) (by simp; omega) (by simp)]; simp

theorem lagrangeNum_eval (l : Nat) (hl : l < pts.length) :
    (polyVal v (S.lagrangeNum pts)).eval (xOf pts S v l) = yOf pts S v l * lagD pts S v := by
  rw [lagrangeNum_val h, eval_finset_sum]
  rw [Finset.sum_congr rfl fun i hi => lagrangeTerm_eval h pts i l (by simpa using hi) hl]
  rw [Finset.sum_ite_eq', if_pos (by simpa using hl)]

omit h in
theorem degree_le_of_prod {ι : Type} [IsDomain R] (s : Finset ι) (f : ι → R[X]) (hf : ∀ i ∈ s, (f i).degree = 1) :
    (∏ i ∈ s, f i).degree = s.card := by
  rw [degree_prod, Finset.sum_congr rfl hf]; simp

theorem lagrangeTerm_degree (i : Nat) (hi : i < pts.length) : (polyVal v (S.lagrangeTerm pts i)).degree < pts.length := by
  haveI := h.domain
  rw [lagrangeTerm_val h pts i hi]
  have e3 : (∏ j ∈ Finset.range pts.length, ∏ k ∈ Finset.Ico (j + 1) pts.length,
      if i ≠ j ∧ i ≠ k then C (xOf pts S v j) - C (xOf pts S v k) else (1 : R[X])).degree ≤ 0 := by
    have : (∏ j ∈ Finset.range pts.length, ∏ k ∈ Finset.Ico (j + 1) pts.length,
      if i ≠ j ∧ i ≠ k then C (xOf pts S v j) - C (xOf pts S v k) else (1 : R[X]))
      = C (∏ j ∈ Finset.range pts.length, ∏ k ∈ Finset.Ico (j + 1) pts.length,
      if i ≠ j ∧ i ≠ k then (xOf pts S v j) - (xOf pts S v k) else (1 : R)) := by
      rw [map_prod]
      refine Finset.prod_congr rfl fun j _ => ?_
      rw [map_prod]
      refine Finset.prod_congr rfl fun k _ => ?_
      split <;> simp
    rw [this]; exact degree_C_le
  have e1 := degree_le_of_prod (Finset.Ico (i + 1) pts.length) (fun j => X - C (xOf pts S v j)) (fun j _ => degree_X_sub_C _)
  have e2 := degree_le_of_prod (Finset.range i) (fun j => C (xOf pts S v j) - X) (fun j _ => by
    rw [← neg_sub, degree_neg]; exact degree_X_sub_C _)
  have e0 : (C (yOf pts S v i)).degree ≤ 0 := degree_C_le
  rw [degree_mul, degree_mul, degree_mul, e1, e2]
  have : (C (yOf pts S v i)).degree + ((Finset.Ico (i + 1) pts.length).card : WithBot ℕ) + ((Finset.range i).card : WithBot ℕ)
      + (∏ j ∈ Finset.range pts.length, ∏ k ∈ Finset.Ico (j + 1) pts.length,
      if i ≠ j ∧ i ≠ k then C (xOf pts S v j) - C (xOf pts S v k) else (1 : R[X])).degree
      ≤ 0 + ((Finset.Ico (i + 1) pts.length).card : WithBot ℕ) + ((Finset.range i).card : WithBot ℕ) + 0 := by
    gcongr
  refine lt_of_le_of_lt this ?_
  rw [zero_add, add_zero]
  rw [← Nat.cast_add, Nat.cast_lt]
  simp; omega

theorem lagrangeNum_degree : (polyVal v (S.lagrangeNum pts)).degree < pts.length := by
  rw [lagrangeNum_val h, degree_lt_iff_coeff_zero]
  intro m hm
  rw [finset_sum_coeff]
  refine Finset.sum_eq_zero fun i hi => ?_
  exact coeff_eq_zero_of_degree_lt (lt_of_lt_of_le (lagrangeTerm_degree h pts i (by simpa using hi)) (by exact_mod_cast hm))

theorem lagD_ne_zero (hinj : ∀ i j, i < j → j < pts.length → xOf pts S v i ≠ xOf pts S v j) : lagD pts S v ≠ 0 := by
  haveI := h.domain
  rw [lagD, Finset.prod_ne_zero_iff]
  intro i _
  rw [Finset.prod_ne_zero_iff]
  intro j hj
  simp at hj
  exact sub_ne_zero.2 (hinj i j (by omega) hj.2)

theorem lagD_eq_zero (i j : Nat) (hij : i < j) (hj : j < pts.length) (e : xOf pts S v i = xOf pts S v j) :
    lagD pts S v = 0 := by
  rw [lagD]
  refine Finset.prod_eq_zero (i := i) (by simp; omega) (Finset.prod_eq_zero (i := j) (by simp; omega) (sub_eq_zero.2 e))

/-- Two polynomials of degree below the number of points which agree on distinct points are equal. -/
theorem eq_of_agree (hinj : ∀ i j, i < j → j < pts.length → xOf pts S v i ≠ xOf pts S v j) (P Q : R[X])
    (hP : P.degree < pts.length) (hQ : Q.degree < pts.length)
    (he : ∀ l, l < pts.length → P.eval (xOf pts S v l) = Q.eval (xOf pts S v l)) : P = Q := by
  haveI := h.domain
  apply eq_of_degrees_lt_of_eval_index_eq (s := Finset.range pts.length) (v := xOf pts S v)
  · intro i hi j hj hxy
    by_contra hne
    rcases Nat.lt_or_gt_of_ne hne with hlt | hgt
    · exact hinj i j hlt (by simpa using hj) hxy
    · exact hinj j i hgt (by simpa using hi) hxy.symm
  · simpa using hP
  · simpa using hQ
  · intro i hi; exact he i (by simpa using hi)

/-- A polynomial through the points can be taken of degree below their number. -/
theorem exists_small_interpolant (P : R[X]) : ∃ Q : R[X], Q.degree < pts.length ∧
    ∀ l, l < pts.length → Q.eval (xOf pts S v l) = P.eval (xOf pts S v l) := by
  haveI := h.domain
  let M : R[X] := ∏ i ∈ Finset.range pts.length, (X - C (xOf pts S v i))
  have hM : M.Monic := monic_prod_of_monic _ _ fun i _ => monic_X_sub_C _
  have hd : M.degree = pts.length := by
    rw [degree_le_of_prod _ _ (fun i _ => degree_X_sub_C _)]; simp
  refine ⟨P %ₘ M, by rw [← hd]; exact degree_modByMonic_lt P hM, ?_⟩
  intro l hl
  have hM0 : M.eval (xOf pts S v l) = 0 := by
    rw [eval_prod]; exact Finset.prod_eq_zero (i := l) (by simpa using hl) (by simp)
  conv_rhs => rw [← modByMonic_add_div P M]
  rw [eval_add, eval_mul, hM0, zero_mul, add_zero]

theorem polyInterpolateLagrange_spec (hinj : ∀ i j, i < j → j < pts.length → xOf pts S v i ≠ xOf pts S v j) :
    (∃ f, S.polyInterpolateLagrange pts = some (some f) ∧ (polyVal v f).degree < pts.length ∧
      ∀ l, l < pts.length → (polyVal v f).eval (xOf pts S v l) = yOf pts S v l) ∨
    (S.polyInterpolateLagrange pts = some none ∧
      ¬ ∃ P : R[X], ∀ l, l < pts.length → P.eval (xOf pts S v l) = yOf pts S v l) := by
  haveI := h.domain
  have hD := lagD_ne_zero h pts hinj
  have hC : (C (lagD pts S v) : R[X]) ≠ 0 := by rwa [Ne, C_eq_zero]
  rw [DomainOps.polyInterpolateLagrange]
  rcases h.polyDiv_cases (S.lagrangeNum pts) (S.lagrangeDen pts) with ⟨h1, h2⟩ | ⟨h1, q, h2, h3⟩ | ⟨h1, h2, h3⟩
  · rw [lagrangeDen_val h] at h1; exact absurd h1 hC
  · left
    rw [lagrangeDen_val h] at h3
    refine ⟨q, by rw [h2]; rfl, ?_, ?_⟩
    · have := lagrangeNum_degree h pts
      rwa [h3, degree_mul_C hD] at this
    · intro l hl
      have := lagrangeNum_eval h pts l hl
      rw [h3, eval_mul, eval_C] at this
      exact mul_right_cancel₀ hD this
  · right
    refine ⟨by rw [h3]; rfl, ?_⟩
    rintro ⟨P, hP⟩
    obtain ⟨Q, hQ, hQe⟩ := exists_small_interpolant h pts P
    apply h2
    rw [lagrangeDen_val h]
    refine ⟨Q, ?_⟩
    apply eq_of_agree h pts hinj _ _ (lagrangeNum_degree h pts)
    · rw [degree_C_mul hD]; exact hQ
    · intro l hl
      rw [lagrangeNum_eval h pts l hl, eval_mul, eval_C, hQe l hl, hP l hl, mul_comm]

theorem polyInterpolateLagrange_dup (i j : Nat) (hij : i < j) (hj : j < pts.length) (e : xOf pts S v i = xOf pts S v j) :
    S.polyInterpolateLagrange pts = none := by
  have e0 : S.polyDiv (S.lagrangeNum pts) (S.lagrangeDen pts) = some (.error .divideByZero) := by
    apply h.poly.div_zero
    rw [lagrangeDen_val h, lagD_eq_zero h pts i j hij hj e, C_0]
  rw [DomainOps.polyInterpolateLagrange, e0]; rfl

end
end Verif.Rings
