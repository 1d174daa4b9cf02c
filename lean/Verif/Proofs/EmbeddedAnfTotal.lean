import Verif.Proofs.EmbeddedAnf
import Mathlib.FieldTheory.PrimitiveElement

/-! The search for a primitive element ends. -/

namespace Verif.Anf
open Verif.Rings Polynomial

local notation "qp" => polyVal (id : ℚ → ℚ)

/-- among infinitely many combinations of two algebraic numbers, one generates a field with the first number -/
theorem primitive_hit {a b : ℂ} (ha : IsIntegral ℚ a) (hb : IsIntegral ℚ b) (x y : ℕ → ℚ) (hy : ∀ t, y t ≠ 0)
    (hinj : Function.Injective fun t => x t / y t) : ∃ t, a ∈ IntermediateField.adjoin ℚ {(x t : ℂ) * a + (y t : ℂ) * b} := by
  let E := IntermediateField.adjoin ℚ ({a, b} : Set ℂ)
  haveI : FiniteDimensional ℚ E := IntermediateField.finiteDimensional_adjoin fun z hz => by
    rcases hz with rfl | rfl
    · exact ha
    · exact hb
  haveI : Finite (IntermediateField ℚ E) :=
    Field.finite_intermediateField_of_exists_primitive_element ℚ E (Field.exists_primitive_element ℚ E)
  let a' : E := ⟨a, IntermediateField.subset_adjoin _ _ (by simp)⟩
  let b' : E := ⟨b, IntermediateField.subset_adjoin _ _ (by simp)⟩
  let g : ℕ → E := fun t => x t • a' + y t • b'
  let K : ℕ → IntermediateField ℚ E := fun t => IntermediateField.adjoin ℚ {g t}
  obtain ⟨s, t, hne, hK⟩ := Finite.exists_ne_map_eq_of_infinite K
  have h1 : g s ∈ K s := IntermediateField.mem_adjoin_simple_self ℚ _
  have h2 : g t ∈ K s := by rw [hK]; exact IntermediateField.mem_adjoin_simple_self ℚ _
  have hc : x s / y s - x t / y t ≠ 0 := fun h => hne (hinj (sub_eq_zero.1 h))
  have h3 : a' = (x s / y s - x t / y t)⁻¹ • ((y s)⁻¹ • g s - (y t)⁻¹ • g t) := by
    have : (y s)⁻¹ • g s - (y t)⁻¹ • g t = (x s / y s - x t / y t) • a' := by
      simp only [g, smul_add, smul_smul, inv_mul_cancel₀ (hy _), one_smul, sub_smul, div_eq_inv_mul]
      abel
    rw [this, smul_smul, inv_mul_cancel₀ hc, one_smul]
  have h4 : a' ∈ K s := by
    rw [h3]
    exact (K s).smul_mem (sub_mem ((K s).smul_mem h1) ((K s).smul_mem h2))
  refine ⟨s, ?_⟩
  let φ : E →ₐ[ℚ] ℂ := { toRingHom := algebraMap E ℂ, commutes' := fun r => by simp }
  have h5 : φ a' ∈ (IntermediateField.adjoin ℚ {g s}).map φ := ⟨a', h4, rfl⟩
  rw [IntermediateField.adjoin_map, Set.image_singleton] at h5
  have h6 : φ (g s) = (x s : ℂ) * a + (y s : ℂ) * b := by
    have h7 : g s = (x s : E) * a' + (y s : E) * b' := by
      simp only [g, Algebra.smul_def, eq_ratCast]
    have h8 : φ a' = a := rfl
    have h9 : φ b' = b := rfl
    rw [h7, map_add, map_mul, map_mul, map_ratCast, map_ratCast, h8, h9]
  rw [h6] at h5
  exact h5

theorem adjoin_poly {z w : ℂ} (hz : IsIntegral ℚ z) (h : w ∈ IntermediateField.adjoin ℚ {z}) : ∃ P : ℚ[X], aeval z P = w := by
  have : w ∈ Algebra.adjoin ℚ {z} := by
    rw [← IntermediateField.adjoin_simple_toSubalgebra_of_isAlgebraic hz.isAlgebraic]
    exact h
  rw [Algebra.adjoin_singleton_eq_range_aeval] at this
  exact this

section
variable {A : Type} {O : AlgOps A} {val : A → ℂ} (hO : O.Sound val)
include hO

theorem pairSearch_total {N : Nat} {ratFactor : List ℚ → Option (Option (Factored (List ℚ)))} (hrf : RatFactorOk N ratFactor)
    (rng : Nat → Nat → Nat → Nat → Nat → ℚ) {rats : Nat → Int × Int} (hrats : ∀ t, (rats t).2 ≠ 0)
    (hinj : Function.Injective fun t => ((rats t).1 : ℚ) / (rats t).2) (h0 : ∀ a, ∃ m, O.minPoly a = some m)
    (h1 : ∀ a b, ∃ c, O.add a b = some c) (h2 : ∀ a b, ∃ c, O.mul a b = some c)
    (hret : ∀ a b, ∃ r, asPolyExpr O ratFactor rng a b = some r) {a b : A} (ha : IsIntegral ℚ (val a))
    (hb : IsIntegral ℚ (val b)) (hN : ((minpoly ℚ (val a)).natDegree * (minpoly ℚ (val b)).natDegree) ^ 2 < N) :
    ∃ r, pairSearch O ratFactor rng rats a b 0 = some r := by
  obtain ⟨T, hT⟩ := primitive_hit ha hb (fun t => ((rats t).1 : ℚ)) (fun t => ((rats t).2 : ℚ)) (fun t => by exact_mod_cast hrats t) hinj
  have : ∀ n t, t + n = T → ∃ r, pairSearch O ratFactor rng rats a b t = some r := by
    intro n
    induction n with
    | zero =>
      rintro t rfl
      rw [pairSearch]
      obtain ⟨xa, e1⟩ := h2 (O.ofRat (rats t).1) a
      obtain ⟨yb, e2⟩ := h2 (O.ofRat (rats t).2) b
      obtain ⟨gen, e3⟩ := h1 xa yb
      obtain ⟨s, e4⟩ := hret a gen
      obtain ⟨f, e5⟩ := h0 gen
      have hg : val gen = ((rats t).1 : ℚ) * val a + ((rats t).2 : ℚ) * val b := by
        rw [hO.add _ _ _ e3, hO.mul _ _ _ e1, hO.mul _ _ _ e2, hO.ofRat, hO.ofRat]
      obtain ⟨hint, hdeg⟩ := combo_degree ha hb hg
      have hpa := minpoly.natDegree_pos ha
      have hpb := minpoly.natDegree_pos hb
      obtain ⟨-, s2⟩ := asPolyExpr_spec hO hrf rng a gen (by
        refine lt_of_le_of_lt ?_ hN
        rw [pow_two]
        exact Nat.mul_le_mul hdeg (Nat.le_mul_of_pos_right _ hpb)) s e4
      simp only [e1, e2, e3, e4, Option.bind_eq_bind, Option.bind_some]
      cases s with
      | some p => simp only [e5, Option.bind_some]; exact ⟨_, rfl⟩
      | none =>
        exfalso
        refine s2 rfl (adjoin_poly hint ?_)
        rw [hg]
        exact hT
    | succ n ih =>
      intro t ht
      rw [pairSearch]
      obtain ⟨xa, e1⟩ := h2 (O.ofRat (rats t).1) a
      obtain ⟨yb, e2⟩ := h2 (O.ofRat (rats t).2) b
      obtain ⟨gen, e3⟩ := h1 xa yb
      obtain ⟨s, e4⟩ := hret a gen
      obtain ⟨f, e5⟩ := h0 gen
      simp only [e1, e2, e3, e4, Option.bind_eq_bind, Option.bind_some]
      cases s with
      | some p => simp only [e5, Option.bind_some]; exact ⟨_, rfl⟩
      | none => exact ih (t + 1) (by omega)
  exact this T 0 (by omega)

theorem anfPair_total {N : Nat} {ratFactor : List ℚ → Option (Option (Factored (List ℚ)))} (hrf : RatFactorOk N ratFactor)
    (rng : Nat → Nat → Nat → Nat → Nat → ℚ) {rats : Nat → Int × Int} (hrats : ∀ t, (rats t).2 ≠ 0)
    (hinj : Function.Injective fun t => ((rats t).1 : ℚ) / (rats t).2) (h0 : ∀ a, ∃ m, O.minPoly a = some m)
    (h1 : ∀ a b, ∃ c, O.add a b = some c) (h2 : ∀ a b, ∃ c, O.mul a b = some c)
    (hret : ∀ a b, ∃ r, asPolyExpr O ratFactor rng a b = some r) {a b : A} (ha : IsIntegral ℚ (val a))
    (hb : IsIntegral ℚ (val b)) (hN : ((minpoly ℚ (val a)).natDegree * (minpoly ℚ (val b)).natDegree) ^ 2 < N) :
    ∃ r, anfPair O ratFactor rng rats a b = some r := by
  obtain ⟨s, e1⟩ := hret b a
  obtain ⟨s', e2⟩ := hret a b
  unfold anfPair
  simp only [e1, Option.bind_eq_bind, Option.bind_some]
  cases s with
  | some q => exact ⟨_, rfl⟩
  | none =>
    simp only [e2, Option.bind_some]
    cases s' with
    | some p => exact ⟨_, rfl⟩
    | none => exact pairSearch_total hO hrf rng hrats hinj h0 h1 h2 hret ha hb hN

theorem anfMulti_total {N : Nat} {ratFactor : List ℚ → Option (Option (Factored (List ℚ)))} (hrf : RatFactorOk N ratFactor)
    (rng : Nat → Nat → Nat → Nat → Nat → ℚ) {rats : Nat → Int × Int} (hrats : ∀ t, (rats t).2 ≠ 0)
    (hinj : Function.Injective fun t => ((rats t).1 : ℚ) / (rats t).2) (h0 : ∀ a, ∃ m, O.minPoly a = some m)
    (h1 : ∀ a b, ∃ c, O.add a b = some c) (h2 : ∀ a b, ∃ c, O.mul a b = some c)
    (hret : ∀ a b, ∃ r, asPolyExpr O ratFactor rng a b = some r) (l : List A) (hne : l ≠ [])
    (hN : ((l.map fun a => (minpoly ℚ (val a)).natDegree).prod) ^ 2 < N) : ∃ r, anfMulti O ratFactor rng rats l = some r := by
  have hint : ∀ a, IsIntegral ℚ (val a) := fun a => by
    obtain ⟨m, e⟩ := h0 a
    obtain ⟨k1, k2⟩ := hO.minPoly a m e
    exact isAlgebraic_iff_isIntegral.1 ⟨_, k1.ne_zero, k2⟩
  have key : ∀ (l : List A) (st : A × List (List ℚ)),
      ((minpoly ℚ (val st.1)).natDegree * (l.map fun a => (minpoly ℚ (val a)).natDegree).prod) ^ 2 < N →
      ∃ r, l.foldlM (anfMultiStep O ratFactor rng rats) st = some r := by
    intro l
    induction l with
    | nil => exact fun st _ => ⟨st, rfl⟩
    | cons num l ih =>
      intro st hN
      have hpos : 0 < (l.map fun a => (minpoly ℚ (val a)).natDegree).prod := by
        refine List.prod_pos fun x hx => ?_
        obtain ⟨a, -, rfl⟩ := List.mem_map.1 hx
        exact minpoly.natDegree_pos (hint a)
      rw [List.map_cons, List.prod_cons, ← mul_assoc] at hN
      have hN' := lt_of_le_of_lt (Nat.pow_le_pow_left (Nat.le_mul_of_pos_right _ hpos) 2) hN
      obtain ⟨q, e1⟩ := anfPair_total hO hrf rng hrats hinj h0 h1 h2 hret (hint st.1) (hint num) hN'
      obtain ⟨f, e2⟩ := h0 q.1
      obtain ⟨f1, f2⟩ := hO.minPoly _ _ e2
      haveI : Fact (Irreducible (qp f)) := ⟨f1⟩
      obtain ⟨ps, e3⟩ : ∃ ps, st.2.mapM (fun oldP => ratOps.pqReduce f (ratOps.polyCompose oldP q.2.2.2.1)) = some ps := by
        induction st.2 with
        | nil => exact ⟨[], rfl⟩
        | cons p l ih =>
          obtain ⟨ps, e⟩ := ih
          obtain ⟨r', q1, -⟩ := ratOps_models.polyRemMod (ratOps.polyCompose p q.2.2.2.1) f (irr_ne f)
          have q1' : ratOps.pqReduce f (ratOps.polyCompose p q.2.2.2.1) = some r' := q1
          rw [List.mapM_cons, q1', Option.bind_eq_bind, Option.bind_some, e]
          exact ⟨_, rfl⟩
      obtain ⟨p1, -, -⟩ := anfPair_spec hO hrf rng hrats (hint st.1) (hint num) hN' q e1
      have hg : val q.1 = (q.2.1 : ℚ) * val st.1 + (q.2.2.1 : ℚ) * val num := by rw [p1]; push_cast; rfl
      obtain ⟨-, g2⟩ := combo_degree (hint st.1) (hint num) hg
      obtain ⟨r, hr⟩ := ih (q.1, ps ++ [q.2.2.2.2]) (lt_of_le_of_lt (Nat.pow_le_pow_left (Nat.mul_le_mul_right _ g2) 2) hN)
      refine ⟨r, ?_⟩
      rw [List.foldlM_cons]
      unfold anfMultiStep
      simp only [e1, e2, e3, Option.bind_eq_bind, Option.bind_some]
      exact hr
  cases l with
  | nil => exact absurd rfl hne
  | cons a l => exact key l _ hN

end
end Verif.Anf
