import Verif.Proofs.PolyGcd

/-!
# Primitive parts over a field of fractions
-/

namespace Verif.Rings

open Polynomial

section
variable {α β K R : Type} [Field K] [CommRing R] [Algebra R K] {S : DomainOps α} {B : GcdOps β}
  {v : α → K} {w : β → R} {fromBase : β → α} {num den : α → β}
  (hS : S.Models v) (hB : B.Models w) (hF : FofModels fromBase num den v w)
include hS hB hF

theorem fofClear_spec [IsFractionRing R K] (p : List α) (d : β) (hd : ∀ c ∈ p, w (den c) ∣ w d) :
    ∃ q, fofClear S B fromBase num den p d = some q ∧
      (polyVal w q).map (algebraMap R K) = C (algebraMap R K (w d)) * polyVal v p := by
  induction p with
  | nil => exact ⟨[], rfl, by simp⟩
  | cons c p ih =>
    obtain ⟨q, q1, q2⟩ := ih (fun x hx => hd x (List.mem_cons_of_mem _ hx))
    obtain ⟨k, hk⟩ := hd c List.mem_cons_self
    have e : v (S.mul (fromBase d) c) = algebraMap R K (k * w (num c)) := by
      rw [hS.mul, hF.fromBase, hk, map_mul, map_mul, ← hF.fraction]; ring
    have h1 := hF.base _ _ e
    have h2 := hF.fraction (S.mul (fromBase d) c)
    rw [h1, map_one, mul_one] at h2
    refine ⟨num (S.mul (fromBase d) c) :: q, ?_, ?_⟩
    · rw [fofClear, List.mapM_cons]
      rw [fofClear] at q1
      rw [q1, asBaseRing, if_pos ((hB.equal _ _).2 (by rw [h1, hB.one]))]
      rfl
    · simp only [polyVal_cons, Polynomial.map_add, map_C, Polynomial.map_mul, map_X, q2, ← h2]
      rw [hS.mul, hF.fromBase, C_mul]; ring

theorem polyFactorPrimitiveFof_spec [IsFractionRing R K] (p : List α) (hp : polyVal v p ≠ 0) :
    ∃ c q, polyFactorPrimitiveFof S B fromBase num den p = some (c, q) ∧ v c ≠ 0 ∧ (polyVal w q).IsPrimitive ∧
      polyVal v p = C (v c) * (polyVal w q).map (algebraMap R K) := by
  haveI := hB.domain
  have hinj : Function.Injective (algebraMap R K) := IsFractionRing.injective R K
  obtain ⟨d, d1, d2, d3⟩ := hB.lcmList_fold (p.map den) B.one
  have hd0 : w d ≠ 0 := by
    intro e
    have : w d ∣ ((p.map den).map w).prod := by
      apply d3
      intro x hx
      rcases hx with rfl | hx
      · rw [hB.one]; exact one_dvd _
      · exact List.dvd_prod hx
    rw [e, zero_dvd_iff, List.prod_eq_zero_iff] at this
    simp only [List.map_map, List.mem_map, Function.comp] at this
    obtain ⟨x, -, hx⟩ := this
    exact hF.den_ne x hx
  obtain ⟨q, q1, q2⟩ := fofClear_spec hS hB hF p d (fun c hc => d2 _ (Or.inr (by
    simp only [List.map_map, Set.mem_setOf_eq, List.mem_map, Function.comp]; exact ⟨c, hc, rfl⟩)))
  have hd1 : algebraMap R K (w d) ≠ 0 := (map_ne_zero_iff _ hinj).2 hd0
  have hq0 : polyVal w q ≠ 0 := by
    intro e
    rw [e, Polynomial.map_zero] at q2
    exact mul_ne_zero (C_ne_zero.2 hd1) hp q2.symm
  obtain ⟨m, q', m1, m2, -, m4, m5, -⟩ := hB.polyFactorPrimitiveUnwrap q hq0
  obtain ⟨c, c1, c2⟩ := hS.div_unwrap (fromBase m) (fromBase d) (by rwa [hF.fromBase])
    (by rw [hF.fromBase, hF.fromBase]; exact (isUnit_iff_ne_zero.2 hd1).dvd)
  rw [hF.fromBase, hF.fromBase] at c2
  refine ⟨c, q', ?_, ?_, m5, ?_⟩
  · rw [polyFactorPrimitiveFof, GcdOps.lcmList, d1]
    simp only [Option.bind_eq_bind, Option.bind_some, q1, m1, c1]
  · intro e
    rw [e, zero_mul] at c2
    exact m2 ((map_eq_zero_iff _ hinj).1 c2)
  · rw [m4, Polynomial.map_mul, map_C, c2, C_mul] at q2
    have : C (algebraMap R K (w d)) ≠ (0 : K[X]) := C_ne_zero.2 hd1
    apply mul_left_cancel₀ this
    rw [← q2]; ring

theorem polyFactorPrimitiveFof_zero [IsFractionRing R K] (p : List α) (hp : polyVal v p = 0) :
    polyFactorPrimitiveFof S B fromBase num den p = none := by
  have hinj : Function.Injective (algebraMap R K) := IsFractionRing.injective R K
  obtain ⟨d, d1, d2, d3⟩ := hB.lcmList_fold (p.map den) B.one
  obtain ⟨q, q1, q2⟩ := fofClear_spec hS hB hF p d (fun c hc => d2 _ (Or.inr (by
    simp only [List.map_map, Set.mem_setOf_eq, List.mem_map, Function.comp]; exact ⟨c, hc, rfl⟩)))
  rw [hp, mul_zero, Polynomial.map_eq_zero_iff hinj] at q2
  rw [polyFactorPrimitiveFof, GcdOps.lcmList, d1]
  simp only [Option.bind_eq_bind, Option.bind_some, q1, GcdOps.polyFactorPrimitiveUnwrap, hB.polyFactorPrimitive_zero q q2]
  rfl

end
end Verif.Rings
