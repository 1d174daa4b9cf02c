import Verif.Proofs.SignVar
import Verif.Proofs.Vincent
import Verif.Proofs.PolyDivision
import Verif.Proofs.PolyGcd
import Verif.Proofs.Hensel

/-!
# The operations of the isolation, as operations on real polynomials
-/

namespace Verif.RealRoots

open Polynomial Verif.Rings

/-- The integer polynomial of a coefficient list. -/
scoped notation "ipoly" => polyVal (id : Int → Int)

theorem intGcd_models : intGcd.Models (id : Int → Int) := intOps_models.bezout.toGcd

theorem rv_eq (p : List Int) : rv p = (ipoly p).map (Int.castRingHom ℝ) :=
  polyVal_comp (Int.castRingHom ℝ) (id : Int → Int) p

theorem rv_ne_zero {p : List Int} : rv p ≠ 0 ↔ ipoly p ≠ 0 := by
  rw [rv_eq, Ne, Polynomial.map_eq_zero_iff (RingHom.injective_int (Int.castRingHom ℝ))]

theorem rv_natDegree (p : List Int) : (rv p).natDegree = (ipoly p).natDegree := by
  rw [rv_eq, natDegree_map_eq_of_injective (RingHom.injective_int (Int.castRingHom ℝ))]

theorem rv_compose (p q : List Int) : rv (intGcd.polyCompose p q) = (rv p).comp (rv q) := by
  rw [rv_eq, rv_eq, rv_eq, show ipoly (intGcd.polyCompose p q) = (ipoly p).comp (ipoly q) from intGcd_models.toSemi.polyCompose p q, Polynomial.map_comp]

theorem rv_one_one : rv [1, 1] = X + C 1 := by
  simp [rv, polyVal_cons, add_comm]

theorem rv_reversed {p : List Int} (hr : PolyReduced (id : Int → Int) p) : rv (polyReversed p) = (rv p).reverse := by
  unfold rv
  rw [polyReversed_spec]
  · rfl
  · intro c hc
    have := hr c hc
    simpa using this

theorem reverse_compose {q : List Int} (hr : PolyReduced (id : Int → Int) q) :
    rv (intGcd.polyCompose (polyReversed q) [1, 1]) = phi (rv q) := by
  rw [rv_compose, rv_reversed hr, rv_one_one]; rfl

theorem intEval (p : List Int) (x : Int) : intGcd.polyEvaluate p x = (ipoly p).eval x := by
  have := intGcd_models.toSemi.polyEvaluate p x
  simpa using this

theorem rv_eval_int (p : List Int) (x : Int) : (rv p).eval (x : ℝ) = ((intGcd.polyEvaluate p x : Int) : ℝ) := by
  rw [intEval, rv_eq, eval_intCast_map, Int.coe_castRingHom]; rfl

theorem evalAtRat_eq (p : List Int) (x : ℚ) : ((evalAtRat p x : ℚ) : ℝ) = (rv p).eval (x : ℝ) := by
  have h := ratOps_models.toSemi.polyEvaluate (p.map fun c : Int => (c : ℚ)) x
  rw [evalAtRat]
  have h1 : polyVal (id : ℚ → ℚ) (p.map fun c : Int => (c : ℚ)) = (ipoly p).map (Int.castRingHom ℚ) := by
    rw [← polyVal_comp (Int.castRingHom ℚ) (id : Int → Int) p, polyVal_map (fun a : Int => (Int.castRingHom ℚ) (id a)) (id : ℚ → ℚ) (fun c : Int => (c : ℚ)) (RingHom.id ℚ) (fun a => by simp)]
    simp
  rw [h1] at h
  simp only [id] at h
  rw [h, rv_eq, ← eq_ratCast (Rat.castHom ℝ) , ← eq_ratCast (Rat.castHom ℝ) x, ← eval_map_apply, Polynomial.map_map]
  congr 2

theorem reduced_of_length {p : List Int} (h : ipoly p ≠ 0) (hl : p.length = (ipoly p).natDegree + 1) : PolyReduced (id : Int → Int) p := by
  intro c hc
  rw [List.getLast?_eq_getElem?] at hc
  have h1 : p.length - 1 < p.length := by omega
  rw [List.getElem?_eq_getElem h1, Option.some_inj] at hc
  have h2 := coeff_polyVal_lt (id : Int → Int) p _ h1
  rw [hc] at h2
  rw [← h2, hl, Nat.add_sub_cancel]
  exact leadingCoeff_ne_zero.2 h

theorem reduced_length {p : List Int} (hr : PolyReduced (id : Int → Int) p) (h : ipoly p ≠ 0) : p.length = (ipoly p).natDegree + 1 := by
  have hne : p ≠ [] := by rintro rfl; simp at h
  have := (polyReduced_natDegree p hr hne).2
  have h2 : 0 < p.length := List.length_pos_iff.2 hne
  omega

theorem compose_reduced (p q : List Int) : PolyReduced (id : Int → Int) (intGcd.polyCompose p q) := by
  rw [SemiRingOps.polyCompose, SemiRingOps.polyEvaluate, List.foldl_reverse]
  cases p with
  | nil => intro c hc; simp [SemiRingOps.poly] at hc
  | cons x p =>
    rw [List.map_cons, List.foldr_cons]
    exact intGcd_models.toSemi.polyReduce_reduced _

theorem quoremLoop_length (b : List Int) (n i : Nat) (q a q' r : List Int)
    (e : intGcd.polyQuoremLoop b n i q a = some (.ok (q', r))) : q'.length = q.length := by
  induction i generalizing q a with
  | zero => simp only [DomainOps.polyQuoremLoop] at e; cases e; rfl
  | succ i ih =>
    rw [DomainOps.polyQuoremLoop] at e
    split at e
    · have := ih _ _ e; simpa using this
    · simp at e
    · simp at e
    · simp at e

/-- An exact quotient is stored without leading zeros. -/
theorem polyDiv_reduced {a b q : List Int} (ha : ipoly a ≠ 0) (e : unwrapDiv (intGcd.polyDiv a b) = some q) (hm : ipoly a = ipoly q * ipoly b) :
    PolyReduced (id : Int → Int) q := by
  have hb : ipoly b ≠ 0 := fun h => ha (by rw [hm, h, mul_zero])
  have hq : ipoly q ≠ 0 := fun h => ha (by rw [hm, h, zero_mul])
  have hdeg : (ipoly a).natDegree = (ipoly q).natDegree + (ipoly b).natDegree := by rw [hm, natDegree_mul hq hb]
  apply reduced_of_length hq
  cases ht : intGcd.polyTryQuorem a b with
  | none => rw [DomainOps.polyDiv, ht] at e; simp [unwrapDiv] at e
  | some x =>
    cases x with
    | error x => rw [DomainOps.polyDiv, ht] at e; simp [unwrapDiv] at e
    | ok qr =>
      obtain ⟨q', r⟩ := qr
      have hqq : q' = q := by
        rw [DomainOps.polyDiv, ht] at e
        simp only [DomainOps.polyDivCheck] at e
        split at e
        · split at e
          · simpa [unwrapDiv] using e
          · simp [unwrapDiv] at e
        · simp [unwrapDiv] at e
      rw [hqq] at ht
      rw [DomainOps.polyTryQuorem] at ht
      rw [intGcd_models.toSemi.polyNumCoeffs_ne a ha, intGcd_models.toSemi.polyNumCoeffs_ne b hb, if_neg (by omega), if_neg (by omega)] at ht
      have := quoremLoop_length _ _ _ _ _ _ _ ht
      rw [this, List.length_replicate]
      omega

/-- Division by a divisor. -/
theorem intDiv_ok {a b : List Int} (ha : ipoly a ≠ 0) (hd : ipoly b ∣ ipoly a) :
    ∃ q, unwrapDiv (intGcd.polyDiv a b) = some q ∧ ipoly a = ipoly q * ipoly b ∧ PolyReduced (id : Int → Int) q := by
  have hb : ipoly b ≠ 0 := fun h => ha (by rw [h, zero_dvd_iff] at hd; exact hd)
  obtain ⟨q, h1, h2⟩ := intGcd_models.toDomain.poly.div_unwrap a b hb hd
  exact ⟨q, h1, h2, polyDiv_reduced ha h1 h2⟩

theorem qSmall_spec {q : List Int} (hr : PolyReduced (id : Int → Int) q) (h0 : ipoly q ≠ 0) :
    ∃ s, qSmall q = some s ∧ PolyReduced (id : Int → Int) s ∧ ∃ κ : ℝ, κ ≠ 0 ∧ rv s = C κ * (rv q).comp (C (1 / 2) * X) := by
  have hl := reduced_length hr h0
  have hdeg := intGcd_models.toSemi.polyDegree_some q h0
  refine ⟨q.mapIdx fun i c => c * 2 * 2 ^ ((ipoly q).natDegree - i), ?_, ?_, 2 * 2 ^ (ipoly q).natDegree, by positivity, ?_⟩
  · rw [qSmall, hdeg]
    simp only [Option.bind_eq_bind, Option.bind_some, assertThat]
    rw [if_pos (by simp [hl])]
    rfl
  · intro c hc
    rw [List.getLast?_eq_getElem?, List.getElem?_mapIdx, List.length_mapIdx] at hc
    have h1 : q.length - 1 < q.length := by omega
    rw [List.getElem?_eq_getElem h1] at hc
    simp only [Option.map_some, Option.some_inj] at hc
    have h2 := hr q[q.length - 1] (by rw [List.getLast?_eq_getElem?, List.getElem?_eq_getElem h1])
    simp only [id] at h2 ⊢
    rw [← hc]
    positivity
  · ext i
    rw [rv_coeff, coeff_C_mul, comp_C_mul_X_coeff, rv_coeff]
    by_cases hi : i < q.length
    · rw [List.getD_eq_getElem _ _ (by simpa using hi), List.getD_eq_getElem _ _ hi, List.getElem_mapIdx]
      push_cast
      have h3 : (2 : ℝ) ^ (ipoly q).natDegree = 2 ^ ((ipoly q).natDegree - i) * 2 ^ i := by rw [← pow_add]; congr 1; omega
      rw [h3, one_div, inv_pow]
      field_simp
    · rw [List.getD_eq_default _ _ (by simpa using hi), List.getD_eq_default _ _ (by omega)]; simp

end Verif.RealRoots
