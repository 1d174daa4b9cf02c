import Verif.Proofs.InterpolateLinear
import Verif.Props.Polynomial
import Mathlib.LinearAlgebra.Lagrange
import Verif.Proofs.Numbers

/-! Properties of the interpolation by a linear system. -/

namespace Verif.Rings
open Polynomial

/-- the degree is less than the length of the list of coefficients -/
theorem polyVal_degree_lt {α R : Type} [CommRing R] (v : α → R) (p : List α) : (polyVal v p).degree < p.length := by
  refine (degree_lt_iff_coeff_zero _ _).2 fun m hm => ?_
  induction p generalizing m with
  | nil => simp [polyVal]
  | cons c p ih =>
    obtain ⟨k, rfl⟩ : ∃ k, m = k + 1 := ⟨m - 1, by simp at hm; omega⟩
    rw [polyVal_cons, coeff_add, coeff_X_mul, coeff_C_succ, zero_add]
    exact ih k (by simpa using hm)

/-- C185: over a Bézout domain, `interpolate_by_linear_system` never panics, for any list of points (repeated ones as well): it returns a
polynomial of degree less than the number of points through all of them, or `None`, and then there is no such polynomial. -/
theorem C185_linear_system {α R : Type} [CommRing R] {S : BezoutOps α} {v : α → R} (h : S.Models v) (points : List (α × α)) :
    (∃ p, S.polyInterpolateLinear points = some (some p) ∧ (polyVal v p).degree < points.length ∧
      ∀ q ∈ points, (polyVal v p).eval (v q.1) = v q.2) ∨
    (S.polyInterpolateLinear points = some none ∧
      ¬ ∃ P : R[X], P.degree < points.length ∧ ∀ q ∈ points, P.eval (v q.1) = v q.2) := by
  rcases polyInterpolateLinear_spec h points with ⟨p, h1, h2, h3⟩ | h1
  · exact Or.inl ⟨p, h1, h2 ▸ polyVal_degree_lt v p, h3⟩
  · exact Or.inr h1

/-- C185: on points with distinct first coordinates it agrees with `interpolate_by_lagrange_basis`: both return the same polynomial, or both
return `None`, and then no polynomial of any degree passes through the points. -/
theorem C185_agrees_with_lagrange {α R : Type} [CommRing R] [IsDomain R] {S : BezoutOps α} {v : α → R} (h : S.Models v)
    (points : List (α × α)) (hinj : (points.map fun q => v q.1).Nodup) :
    (∃ p p', S.polyInterpolateLinear points = some (some p) ∧ S.toDomainOps.polyInterpolateLagrange points = some (some p') ∧
      polyVal v p = polyVal v p') ∨
    (S.polyInterpolateLinear points = some none ∧ S.toDomainOps.polyInterpolateLagrange points = some none ∧
      ¬ ∃ P : R[X], ∀ q ∈ points, P.eval (v q.1) = v q.2) := by
  rcases C60_lagrange h.toGcd.toFav.toDomain points hinj with ⟨p', l1, l2, l3⟩ | ⟨l1, l2⟩
  · left
    rcases C185_linear_system h points with ⟨p, h1, h2, h3⟩ | ⟨-, h2⟩
    · refine ⟨p, p', h1, l1, ?_⟩
      have hi : Set.InjOn (fun i : Fin points.length => v (points[i]).1) (Finset.univ : Finset (Fin points.length)) := by
        intro i _ j _ hij
        refine Fin.ext ((List.Nodup.getElem_inj_iff hinj (hi := by simp) (hj := by simp)).1 (by simpa using hij))
      refine Polynomial.eq_of_degrees_lt_of_eval_index_eq Finset.univ hi (by simpa using h2) (by simpa using l2) fun i _ => ?_
      exact (h3 _ (List.getElem_mem i.2)).trans (l3 _ (List.getElem_mem i.2)).symm
    · exact absurd ⟨_, l2, l3⟩ h2
  · right
    rcases C185_linear_system h points with ⟨p, -, -, h3⟩ | ⟨h1, -⟩
    · exact absurd ⟨_, h3⟩ l2
    · exact ⟨h1, l1, l2⟩

/-- C185: over a field, on points with distinct first coordinates, it always returns a polynomial. -/
theorem C185_field {α F : Type} [Field F] {S : BezoutOps α} {v : α → F} (h : S.Models v) (points : List (α × α))
    (hinj : (points.map fun q => v q.1).Nodup) :
    ∃ p, S.polyInterpolateLinear points = some (some p) ∧ (polyVal v p).degree < points.length ∧
      ∀ q ∈ points, (polyVal v p).eval (v q.1) = v q.2 := by
  rcases C185_linear_system h points with h1 | ⟨-, h2⟩
  · exact h1
  · obtain ⟨f, -, f1, f2⟩ := C60_lagrange_field h.toGcd.toFav.toDomain points hinj
    exact absurd ⟨_, f1, f2⟩ h2

/-- through `(0, 0)` and `(2, 1)` there is no polynomial with integer coefficients, and `None` is returned -/
example : intOps.bezout.polyInterpolateLinear [(0, 0), (2, 1)] = some none := by
  rcases C185_linear_system intOps_models.bezout [(0, 0), (2, 1)] with ⟨p, -, -, h⟩ | ⟨h, -⟩
  · exfalso
    have h0 := h (0, 0) (by simp)
    have h2 := h (2, 1) (by simp)
    have := (polyVal (id : Int → Int) p).sub_dvd_eval_sub 2 0
    simp only [id] at h0 h2
    rw [h0, h2] at this
    norm_num at this
  · exact h

/-- repeated points are no problem: `(1, 1)` twice -/
example : ∃ p, intOps.bezout.polyInterpolateLinear [(1, 1), (1, 1)] = some (some p) := by
  rcases C185_linear_system intOps_models.bezout [(1, 1), (1, 1)] with ⟨p, h, -⟩ | ⟨-, h⟩
  · exact ⟨p, h⟩
  · refine absurd ⟨C 1, ?_, ?_⟩ h
    · rw [degree_C one_ne_zero]; norm_num
    · intro q hq
      simp only [List.mem_cons, List.not_mem_nil, or_false, or_self] at hq
      subst hq
      simp

example : ∃ p, ratOps.fieldEuc.bezout.polyInterpolateLinear [(1, 3), (2, 1), (3, -2)] = some (some p) :=
  let ⟨p, h, _⟩ := C185_field ratOps_models.fieldEuc.bezout [(1, 3), (2, 1), (3, -2)] (by decide +kernel)
  ⟨p, h⟩

end Verif.Rings
