import Verif.Proofs.GeometryVec
import Verif.Proofs.Subsets
import Mathlib.LinearAlgebra.Matrix.Rank
import Mathlib.LinearAlgebra.Matrix.Determinant.Basic
import Mathlib.LinearAlgebra.Matrix.Basis

/-! # Affine independence and simplices -/

namespace Verif.Geometry

open Verif.Rings

section Math
variable {K : Type} [Field K]

theorem rank_eq_iff_linearIndependent {n d : Nat} (M : Fin n → Fin d → K) : (Matrix.of M).rank = n ↔ LinearIndependent K M := by
  rw [linearIndependent_iff_card_eq_finrank_span, Matrix.rank_eq_finrank_span_row, Fintype.card_fin]
  exact eq_comm

theorem affineIndependent_fin_succ {n d : Nat} (p : Fin (n + 1) → Fin d → K) :
    AffineIndependent K p ↔ LinearIndependent K fun i : Fin n => p i.succ - p 0 := by
  rw [affineIndependent_iff_linearIndependent_vsub K p 0, ← linearIndependent_equiv (finSuccAboveEquiv (0 : Fin (n + 1)))]
  rfl

end Math

section
variable {α K : Type} [Field K] {v : α → K} {d : Nat}

theorem range_pointsOf (l : List (Vec α)) : Set.range (pointsOf v d l) = pointSet v d l := by
  ext x
  constructor
  · rintro ⟨i, rfl⟩
    exact ⟨l[i], List.getElem_mem _, rfl⟩
  · rintro ⟨p, hp, rfl⟩
    obtain ⟨i, hi, rfl⟩ := List.getElem_of_mem hp
    exact ⟨⟨i, hi⟩, rfl⟩

theorem indep_nil : AffineIndependent K (pointsOf v d []) := by
  haveI : Subsingleton (Fin ([] : List (Vec α)).length) := inferInstanceAs (Subsingleton (Fin 0))
  exact affineIndependent_of_subsingleton K _

end

section
variable {α K : Type} [Field K] [LinearOrder K] {S : OrdOps α} {v : α → K} (h : S.Models v) {d : Nat} {sp : Space}

theorem pointsOf_get {l : List (Vec α)} {i : Nat} (hi : i < l.length) : pointsOf v d l ⟨i, hi⟩ = l[i].val v d := rfl

include h

theorem OrdOps.Models.determinant {vecs : List (Vec α)} (hd : sp.dim = d + 1) (hv : ∀ p ∈ vecs, p.In sp) (hl : vecs.length = d) :
    ∃ x, S.determinant sp vecs = some x ∧ v x = (Matrix.of fun i : Fin d => (vecs[i]).val v d).det := by
  subst hl
  obtain ⟨m, h1, h2⟩ := rowsFromVectors_denotes (v := v) S.zero hd hv
  obtain ⟨x, x1, x2⟩ := h.bez.matDet h2
  refine ⟨x, ?_, x2⟩
  unfold OrdOps.determinant
  simp only [h1, Option.bind_eq_bind, Option.bind_some, x1]
  rfl

theorem OrdOps.Models.determinant_shape {vecs : List (Vec α)} (hd : sp.dim = d + 1) (hv : ∀ p ∈ vecs, p.In sp) (hl : vecs.length ≠ d) :
    S.determinant sp vecs = none := by
  obtain ⟨m, h1, h2⟩ := rowsFromVectors_denotes (v := v) S.zero hd hv
  unfold OrdOps.determinant
  simp only [h1, Option.bind_eq_bind, Option.bind_some, BezoutOps.matDet_notSquare (S := S.bez) h2 hl]
  rfl

theorem OrdOps.Models.rank {vecs : List (Vec α)} (hd : sp.dim = d + 1) (hv : ∀ p ∈ vecs, p.In sp) :
    S.rank sp vecs = some (Module.finrank K (Submodule.span K (pointSet v d vecs))) := by
  obtain ⟨m, h1, h2⟩ := rowsFromVectors_denotes (v := v) S.zero hd hv
  unfold OrdOps.rank
  simp only [h1, Option.bind_eq_bind, Option.bind_some]
  rw [h.bez.matRank h2 (RingHom.id K) Function.injective_id]
  congr 1
  have : (Matrix.of (pointsOf v d vecs)).map (RingHom.id K) = Matrix.of (pointsOf v d vecs) := by ext; rfl
  rw [this, Matrix.rank_eq_finrank_span_row]
  rw [← range_pointsOf]
  rfl

/-- the differences of a list of points with a root -/
theorem OrdOps.Models.subAll {root : Vec α} {l : List (Vec α)} (hd : sp.dim = d + 1) (hr : root.In sp) (hl : ∀ p ∈ l, p.In sp) :
    ∃ l', (l.mapM fun q => S.vecSub q root) = some l' ∧ l'.length = l.length ∧ (∀ p ∈ l', p.In sp) ∧
      ∀ (i : Nat) (hi : i < l'.length) (hi' : i < l.length), l'[i].val v d = l[i].val v d - root.val v d := by
  obtain ⟨l', h1, h2, h3⟩ := mapM_fin (l := l) (f := fun q => S.vecSub q root)
    (P := fun i p => p.In sp ∧ ∀ hi : i < l.length, p.val v d = l[i].val v d - root.val v d) (by
      intro i hi
      obtain ⟨r, r1, r2, r3⟩ := h.vecSub hd (hl _ (List.getElem_mem hi)) hr
      exact ⟨r, r1, r2, fun _ => r3⟩)
  refine ⟨l', h1, h2, ?_, fun i hi hi' => (h3 i hi).2 hi'⟩
  intro p hp
  obtain ⟨i, hi, rfl⟩ := List.getElem_of_mem hp
  exact (h3 i hi).1

theorem OrdOps.Models.affIndep {points : List (Vec α)} (hd : sp.dim = d + 1) (hv : ∀ p ∈ points, p.In sp) :
    ∃ b, S.affIndep sp points = some b ∧ (b = true ↔ AffineIndependent K (pointsOf v d points)) := by
  unfold OrdOps.affIndep
  simp only [all_space hv, assertThat, if_true, Option.bind_eq_bind, Option.bind_some]
  cases points with
  | nil => exact ⟨true, rfl, by simp only [true_iff]; exact indep_nil⟩
  | cons p ps =>
    obtain ⟨l', h1, h2, h3, h4⟩ := h.subAll hd (hv p (by simp)) (fun q hq => hv q (by simp [hq]) : ∀ q ∈ ps, q.In sp)
    obtain ⟨m, m1, m2⟩ := rowsFromVectors_denotes (v := v) S.zero hd h3
    have m3 := h.bez.matRank m2 (RingHom.id K) Function.injective_id
    simp only [h1, m1, m3, Option.bind_some]
    refine ⟨_, rfl, ?_⟩
    rw [beq_iff_eq]
    have : (Matrix.of (pointsOf v d l')).map (RingHom.id K) = Matrix.of (pointsOf v d l') := by ext; rfl
    rw [this, rank_eq_iff_linearIndependent, affineIndependent_fin_succ (n := ps.length),
      ← linearIndependent_equiv (finCongr h2)]
    have e : (fun i : Fin l'.length => pointsOf v d (p :: ps) (finCongr h2 i).succ - pointsOf v d (p :: ps) 0) = pointsOf v d l' := by
      funext i
      exact (h4 i i.2 (by have := i.2; omega)).symm
    rw [← e]
    rfl

theorem OrdOps.Models.affIndep_false {points : List (Vec α)} (hd : sp.dim = d + 1) (hv : ∀ p ∈ points, p.In sp)
    (hn : ¬ AffineIndependent K (pointsOf v d points)) : S.affIndep sp points = some false := by
  obtain ⟨b, h1, h2⟩ := h.affIndep hd hv
  rw [h1]
  congr 1
  cases b
  · rfl
  · exact absurd (h2.1 rfl) hn

theorem OrdOps.Models.affIndep_true {points : List (Vec α)} (hd : sp.dim = d + 1) (hv : Independent v d sp points) :
    S.affIndep sp points = some true := by
  obtain ⟨b, h1, h2⟩ := h.affIndep hd hv.mem
  rw [h1]
  congr 1
  exact h2.2 hv.indep

end

end Verif.Geometry
