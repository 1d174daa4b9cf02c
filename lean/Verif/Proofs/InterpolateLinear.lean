import Verif.Model.InterpolateLinear
import Verif.Proofs.LatticeSolve
import Verif.Proofs.LatticeHyper
import Verif.Proofs.Polynomial

/-! Interpolation by a linear system. -/

namespace Verif.Rings
open Polynomial

theorem polyVal_ofFn_sum {α R : Type} [CommRing R] (v : α → R) {n : Nat} (g : Fin n → α) :
    polyVal v (List.ofFn g) = ∑ i : Fin n, C (v (g i)) * X ^ (i : Nat) := by
  induction n with
  | zero => simp
  | succ n ih =>
    rw [List.ofFn_succ, polyVal_cons, ih, Fin.sum_univ_succ, Finset.mul_sum]
    simp only [Fin.val_zero, pow_zero, mul_one, Fin.val_succ]
    congr 1
    exact Finset.sum_congr rfl fun i _ => by ring

section
variable {α R : Type} [CommRing R] {S : BezoutOps α} {v : α → R} (h : S.Models v)
include h

theorem linSysEntries (x : α) {n r : Nat} (hr : r < n) {m : Mat α} {f : Nat → Nat → α} (hm : m.Rep n n f) (k : Nat) (hk : k ≤ n) :
    ∃ m' w g, (List.range k).foldlM (S.linSysEntry x r) (m, S.one) = some (m', w) ∧ m'.Rep n n g ∧ v w = v x ^ k ∧
      ∀ i j, (i = r ∧ j < k → v (g i j) = v x ^ j) ∧ (¬ (i = r ∧ j < k) → g i j = f i j) := by
  have hS := h.toGcd.toFav.toDomain.toRing.toSemi
  induction k with
  | zero => exact ⟨m, S.one, f, rfl, hm, by rw [pow_zero]; exact hS.one, fun i j => ⟨fun h => absurd h.2 (Nat.not_lt_zero _), fun _ => rfl⟩⟩
  | succ k ih =>
    obtain ⟨m', w, g, e, hm', hw, hg⟩ := ih (by omega)
    obtain ⟨m'', e2, hm''⟩ := hm'.set hr (show k < n by omega) w
    refine ⟨m'', S.mul w x, _, ?_, hm'', ?_, fun i j => ?_⟩
    · rw [List.range_succ, List.foldlM_append, e]
      simp [BezoutOps.linSysEntry, e2]
    · rw [hS.mul, hw, pow_succ]
    · constructor
      · rintro ⟨rfl, hj⟩
        by_cases hjk : j = k
        · subst hjk
          rw [if_pos ⟨rfl, rfl⟩, hw]
        · rw [if_neg (by tauto)]
          exact (hg i j).1 ⟨rfl, by omega⟩
      · intro hn
        rw [if_neg (by rintro ⟨rfl, rfl⟩; exact hn ⟨rfl, by omega⟩)]
        exact (hg i j).2 (fun hc => hn ⟨hc.1, by omega⟩)

theorem linSysRows (points : List (α × α)) {m : Mat α} {f : Nat → Nat → α} (hm : m.Rep points.length points.length f) (k : Nat)
    (hk : k ≤ points.length) :
    ∃ m' g, (List.range k).foldlM (S.linSysRow points) m = some m' ∧ m'.Rep points.length points.length g ∧
      ∀ i j, i < k → j < points.length → v (g i j) = v (points.getD i (S.zero, S.zero)).1 ^ j := by
  induction k with
  | zero => exact ⟨m, f, rfl, hm, fun i j hi => absurd hi (Nat.not_lt_zero _)⟩
  | succ k ih =>
    obtain ⟨m', g, e, hm', hg⟩ := ih (by omega)
    obtain ⟨m'', w, g', e2, hm'', -, hg'⟩ := linSysEntries h (points.getD k (S.zero, S.zero)).1 (show k < points.length by omega) hm' points.length le_rfl
    refine ⟨m'', g', ?_, hm'', fun i j hi hj => ?_⟩
    · rw [List.range_succ, List.foldlM_append, e]
      have e3 : S.linSysRow points m' k = some m'' := by
        unfold BezoutOps.linSysRow
        rw [e2]
        rfl
      simp [e3]
    · by_cases hik : i = k
      · subst hik
        exact (hg' i j).1 ⟨rfl, hj⟩
      · rw [(hg' i j).2 (by tauto)]
        exact hg i j (by omega) hj

omit h in
theorem linSysOuts (points : List (α × α)) {m : Mat α} {f : Nat → Nat → α} (hm : m.Rep points.length 1 f) (k : Nat)
    (hk : k ≤ points.length) :
    ∃ m' g, (List.range k).foldlM (S.linSysOut points) m = some m' ∧ m'.Rep points.length 1 g ∧
      ∀ i, i < k → g i 0 = (points.getD i (S.zero, S.zero)).2 := by
  induction k with
  | zero => exact ⟨m, f, rfl, hm, fun i hi => absurd hi (Nat.not_lt_zero _)⟩
  | succ k ih =>
    obtain ⟨m', g, e, hm', hg⟩ := ih (by omega)
    obtain ⟨m'', e2, hm''⟩ := hm'.set (show k < points.length by omega) one_pos (points.getD k (S.zero, S.zero)).2
    refine ⟨m'', _, ?_, hm'', fun i hi => ?_⟩
    · rw [List.range_succ, List.foldlM_append, e]
      simpa [BezoutOps.linSysOut] using e2
    · by_cases hik : i = k
      · subst hik; simp
      · simp only [hik, false_and, if_false]
        exact hg i (by omega)

theorem polyInterpolateLinear_spec (points : List (α × α)) :
    (∃ p, S.polyInterpolateLinear points = some (some p) ∧ p.length = points.length ∧ ∀ q ∈ points, (polyVal v p).eval (v q.1) = v q.2) ∨
    (S.polyInterpolateLinear points = some none ∧
      ¬ ∃ P : R[X], P.degree < points.length ∧ ∀ q ∈ points, P.eval (v q.1) = v q.2) := by
  have hS := h.toGcd.toFav.toDomain.toRing.toSemi
  obtain ⟨z, z1, z2⟩ := hS.matZero points.length points.length
  obtain ⟨fz, z3, -⟩ := (Mat.denotes_iff S.zero).1 z2
  obtain ⟨mat, g, m1, m2, m3⟩ := linSysRows h points z3 points.length le_rfl
  obtain ⟨z', y1, y2⟩ := hS.matZero points.length 1
  obtain ⟨fz', y3, -⟩ := (Mat.denotes_iff S.zero).1 y2
  obtain ⟨vec, g', w1, w2, w3⟩ := linSysOuts (S := S) points y3 points.length le_rfl
  let A : Matrix (Fin points.length) (Fin points.length) R := Matrix.of fun i j => v (points[i]).1 ^ (j : Nat)
  let Y : Matrix (Fin points.length) (Fin 1) R := Matrix.of fun i _ => v (points[i]).2
  have hget (i : Fin points.length) : points.getD i (S.zero, S.zero) = points[i] := by simp
  have hA : mat.Denotes v A := (Mat.denotes_iff S.zero).2 ⟨g, m2, fun i j => by
    rw [m3 i j i.2 j.2, hget]; rfl⟩
  have hY : vec.Denotes v Y := (Mat.denotes_iff S.zero).2 ⟨g', w2, fun i j => by
    obtain rfl : j = 0 := Subsingleton.elim _ _
    have := w3 i i.2
    rw [hget] at this
    exact congrArg v this⟩
  have hrun : S.polyInterpolateLinear points = (S.colSolve mat vec).bind fun s => match s with
      | some c => ((List.range points.length).mapM fun i => c.get i 0).map some
      | none => some none := by
    unfold BezoutOps.polyInterpolateLinear
    simp only [z1, m1, y1, w1, Option.bind_eq_bind, Option.bind_some]
    rfl
  have hall (P : R[X]) : (∀ q ∈ points, P.eval (v q.1) = v q.2) ↔ ∀ i : Fin points.length, P.eval (v (points[i]).1) = v (points[i]).2 := by
    constructor
    · exact fun H i => H _ (List.getElem_mem i.2)
    · intro H q hq
      obtain ⟨i, hi, rfl⟩ := List.getElem_of_mem hq
      exact H ⟨i, hi⟩
  rcases h.colSolve hA hY with ⟨x, X', e1, e2, e3⟩ | ⟨e1, e2⟩
  · left
    have hx := fun i : Fin points.length => e2.get i 0
    choose c c1 c2 using hx
    refine ⟨List.ofFn c, ?_, by simp, (hall _).2 fun i => ?_⟩
    · rw [hrun, e1, Option.bind_some]
      simp only []
      rw [mapM_range_ofFn c1]
      rfl
    · have hval : polyVal v (List.ofFn c) = ∑ j : Fin points.length, C (X' j 0) * X ^ (j : Nat) := by
        rw [polyVal_ofFn_sum]
        exact Finset.sum_congr rfl fun j _ => by rw [c2 j]
      rw [hval, eval_finsetSum]
      have := congrFun (congrFun e3 i) 0
      rw [Matrix.mul_apply] at this
      refine Eq.trans (Finset.sum_congr rfl fun j _ => ?_) this
      simp only [A, Matrix.of_apply, eval_mul, eval_C, eval_pow, eval_X]
      ring
  · right
    refine ⟨by rw [hrun, e1]; rfl, ?_⟩
    rintro ⟨P, hP, hq⟩
    apply e2
    refine ⟨Matrix.of fun j _ => P.coeff j, ?_⟩
    ext i j
    rw [Matrix.mul_apply]
    have := (hall P).1 hq i
    rw [eval_eq_sum_range' (n := points.length) ?_] at this
    · rw [← Fin.sum_univ_eq_sum_range (fun k => P.coeff k * v (points[i]).1 ^ k)] at this
      simp only [A, Y, Matrix.of_apply]
      rw [← this]
      exact Finset.sum_congr rfl fun j _ => mul_comm _ _
    · by_cases hP0 : P = 0
      · rw [hP0, natDegree_zero]
        exact lt_of_le_of_lt (Nat.zero_le _) i.2
      · exact (natDegree_lt_iff_degree_lt hP0).2 hP

end
end Verif.Rings
