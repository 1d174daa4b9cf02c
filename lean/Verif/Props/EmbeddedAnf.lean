import Verif.Proofs.EmbeddedAnfRep
import Verif.Proofs.EmbeddedAnfTotal
import Verif.Props.AnfFactor

/-! Properties of writing algebraic numbers as polynomials in a generator. `val` sends an algebraic number to the complex number it stands for. -/

namespace Verif.Anf
open Verif.Rings Polynomial

local notation "qp" => polyVal (id : ℚ → ℚ)

/-- C186: whatever the random choices, when `as_poly_expr` returns `Some(p)`, the target is `p` of the generator, and when it returns `None`, the
target is not a rational polynomial of the generator. Missing: that it returns, in general. -/
theorem C186_as_poly_expr_partial {A : Type} {O : AlgOps A} {val : A → ℂ} (hO : O.Sound val) {N : Nat}
    {ratFactor : List ℚ → Option (Option (Factored (List ℚ)))} (hrf : RatFactorOk N ratFactor) (rng : Nat → Nat → Nat → Nat → Nat → ℚ)
    (target generator : A) (hN : (minpoly ℚ (val generator)).natDegree * (minpoly ℚ (val target)).natDegree < N) (r : Option (List ℚ))
    (e : asPolyExpr O ratFactor rng target generator = some r) :
    (∀ p, r = some p → aeval (val generator) (qp p) = val target) ∧
    (r = none ↔ val target ∉ IntermediateField.adjoin ℚ {val generator}) := by
  obtain ⟨h1, h2⟩ := asPolyExpr_spec hO hrf rng target generator hN r e
  refine ⟨h1, fun h hmem => h2 h ?_, fun h => ?_⟩
  · unfold asPolyExpr at e
    simp only [Option.bind_eq_bind] at e
    obtain ⟨f, e1, e⟩ := Option.bind_eq_some_iff.1 e
    obtain ⟨k1, k2⟩ := hO.minPoly _ f e1
    have hi : IsIntegral ℚ (val generator) := isAlgebraic_iff_isIntegral.1 ⟨_, k1.ne_zero, k2⟩
    have : val target ∈ Algebra.adjoin ℚ {val generator} := by
      rw [← IntermediateField.adjoin_simple_toSubalgebra_of_isAlgebraic hi.isAlgebraic]
      exact hmem
    rw [Algebra.adjoin_singleton_eq_range_aeval] at this
    obtain ⟨P, hP⟩ := this
    exact ⟨P, hP⟩
  · by_contra hr
    obtain ⟨p, hp⟩ := Option.ne_none_iff_exists'.1 hr
    apply h
    rw [← h1 p hp]
    exact IntermediateField.algebra_adjoin_le_adjoin _ _ (aeval_mem_adjoin_singleton _ _)

/-- C186: when the operations of the algebraic numbers return and so does the factoring of the minimal polynomial of the target, `as_poly_expr`
returns: the polynomial factored is not zero and the assertion that the factors have leading coefficient one does not fail. -/
theorem C186_no_assertion_fails {A : Type} {O : AlgOps A} {val : A → ℂ} (hO : O.Sound val) (h1 : ∀ a p, ∃ b, O.applyPoly a p = some b)
    (h2 : ∀ a b, ∃ r, O.eq a b = some r) {N : Nat} {ratFactor : List ℚ → Option (Option (Factored (List ℚ)))} (hrf : RatFactorOk N ratFactor)
    (rng : Nat → Nat → Nat → Nat → Nat → ℚ) (target generator : A)
    (hN : (minpoly ℚ (val generator)).natDegree * (minpoly ℚ (val target)).natDegree < N) {f t : List ℚ} (hf : O.minPoly generator = some f)
    (ht : O.minPoly target = some t) (F : Option (Factored (List (List ℚ))))
    (hF : anfFactor ratFactor f rng (t.map polyConst) = some F) : ∃ r, asPolyExpr O ratFactor rng target generator = some r := by
  obtain ⟨k1, -⟩ := hO.minPoly _ _ hf
  obtain ⟨l1, -⟩ := hO.minPoly _ _ ht
  haveI : Fact (Irreducible (qp f)) := ⟨k1⟩
  have hd : (qp f).natDegree * (polyVal (el f) (t.map polyConst)).natDegree < N := by
    rw [polyVal_consts, natDegree_map, minPoly_degree hO hf, minPoly_degree hO ht]
    exact hN
  obtain ⟨m1, m2⟩ := C184_factor_partial f k1 hrf rng _ hd F hF
  have hne : polyVal (el f) (t.map polyConst) ≠ 0 := by
    rw [polyVal_consts]
    exact (Polynomial.map_ne_zero_iff (algebraMap ℚ (NumField f)).injective).2 l1.ne_zero
  cases F with
  | none => exact absurd (m1.2 rfl) hne
  | some F =>
    obtain ⟨⟨-, m3⟩, -⟩ := m2 F rfl
    obtain ⟨r, hr⟩ := polyExprLoop_total (f := f) h1 h2 target generator F.factors fun g hg => ⟨m3 g hg, anfFactor_good hF g hg⟩
    refine ⟨r, ?_⟩
    unfold asPolyExpr
    rw [hf, ht]
    simp only [Option.bind_eq_bind, Option.bind_some, hF, id]
    exact hr

/-- C186: when the generator is rational and the operations of the algebraic numbers return, so does `as_poly_expr`. -/
theorem C186_rational_generator_returns {A : Type} {O : AlgOps A} {val : A → ℂ} (hO : O.Sound val) (h0 : ∀ a, ∃ m, O.minPoly a = some m)
    (h1 : ∀ a p, ∃ b, O.applyPoly a p = some b) (h2 : ∀ a b, ∃ r, O.eq a b = some r) {N : Nat}
    {ratFactor : List ℚ → Option (Option (Factored (List ℚ)))} (hrf : RatFactorOk N ratFactor) (hrt : RatFactorReturns N ratFactor)
    (rng : Nat → Nat → Nat → Nat → Nat → ℚ) (target generator : A) (hg : ∃ q : ℚ, val generator = q)
    (hN : (minpoly ℚ (val target)).natDegree < N) : ∃ r, asPolyExpr O ratFactor rng target generator = some r := by
  obtain ⟨f, hf⟩ := h0 generator
  obtain ⟨t, ht⟩ := h0 target
  obtain ⟨q, hq⟩ := hg
  have hm : (minpoly ℚ (val generator)).natDegree = 1 := by
    have := minpoly.eq_X_sub_C ℂ q
    rw [eq_ratCast] at this
    rw [hq, this, natDegree_X_sub_C]
  obtain ⟨k1, -⟩ := hO.minPoly _ _ hf
  have hd : (qp f).natDegree = 1 := by rw [minPoly_degree hO hf, hm]
  haveI : Fact (Irreducible (qp f)) := ⟨k1⟩
  obtain ⟨F, hF⟩ := C184_degree_one_returns f hd hrf hrt rng (t.map polyConst) (by
    rw [polyVal_consts, natDegree_map, minPoly_degree hO ht]
    exact hN)
  exact C186_no_assertion_fails hO h1 h2 hrf rng target generator (by rw [hm, one_mul]; exact hN) hf ht F hF

/-- C187: when `anf_pair_primitive_element_theorem(a, b)` returns `(g, x, y, p, q)`, then `g = x a + y b`, `a = p(g)` and `b = q(g)`: `g` generates
the field generated by `a` and `b`. The rational numbers that are tried have denominators that are not zero. Missing: that it returns. -/
theorem C187_pair_partial {A : Type} {O : AlgOps A} {val : A → ℂ} (hO : O.Sound val) {N : Nat}
    {ratFactor : List ℚ → Option (Option (Factored (List ℚ)))} (hrf : RatFactorOk N ratFactor) (rng : Nat → Nat → Nat → Nat → Nat → ℚ)
    {rats : Nat → Int × Int} (hrats : ∀ t, (rats t).2 ≠ 0) {a b : A} (ha : IsAlgebraic ℚ (val a)) (hb : IsAlgebraic ℚ (val b))
    (hN : ((minpoly ℚ (val a)).natDegree * (minpoly ℚ (val b)).natDegree) ^ 2 < N) {g : A} {x y : Int} {p q : List ℚ}
    (e : anfPair O ratFactor rng rats a b = some (g, x, y, p, q)) :
    val g = x * val a + y * val b ∧ aeval (val g) (qp p) = val a ∧ aeval (val g) (qp q) = val b ∧
    IntermediateField.adjoin ℚ {val g} = IntermediateField.adjoin ℚ {val a, val b} := by
  obtain ⟨h1, h2, h3⟩ := anfPair_spec hO hrf rng hrats ha.isIntegral hb.isIntegral hN _ e
  refine ⟨h1, h2, h3, le_antisymm ?_ ?_⟩
  · rw [IntermediateField.adjoin_simple_le_iff]
    change val g = _ at h1
    rw [h1]
    refine add_mem (mul_mem ?_ (IntermediateField.subset_adjoin _ _ (by simp))) (mul_mem ?_ (IntermediateField.subset_adjoin _ _ (by simp)))
    · have := rat_mem (IntermediateField.adjoin ℚ {val a, val b}) x
      exact_mod_cast this
    · have := rat_mem (IntermediateField.adjoin ℚ {val a, val b}) y
      exact_mod_cast this
  · rw [IntermediateField.adjoin_le_iff]
    rintro z (rfl | rfl)
    · rw [← h2]
      exact IntermediateField.algebra_adjoin_le_adjoin _ _ (aeval_mem_adjoin_singleton _ _)
    · rw [← h3]
      exact IntermediateField.algebra_adjoin_le_adjoin _ _ (aeval_mem_adjoin_singleton _ _)

/-- C187: when `anf_multi_primitive_element_theorem` of a list of algebraic numbers returns `(g, p)`, there is one polynomial for each number, the
number is that polynomial of `g`, and `g` generates the field generated by the numbers. Missing: that it returns. -/
theorem C187_multi_partial {A : Type} {O : AlgOps A} {val : A → ℂ} (hO : O.Sound val) {N : Nat}
    {ratFactor : List ℚ → Option (Option (Factored (List ℚ)))} (hrf : RatFactorOk N ratFactor) (rng : Nat → Nat → Nat → Nat → Nat → ℚ)
    {rats : Nat → Int × Int} (hrats : ∀ t, (rats t).2 ≠ 0) (nums : List A) (hl : ∀ a ∈ nums, IsAlgebraic ℚ (val a))
    (hN : ((nums.map fun a => (minpoly ℚ (val a)).natDegree).prod) ^ 2 < N) {g : A} {p : List (List ℚ)}
    (e : anfMulti O ratFactor rng rats nums = some (g, p)) :
    List.Forall₂ (fun q a => aeval (val g) (qp q) = val a) p nums ∧
    IntermediateField.adjoin ℚ {val g} = IntermediateField.adjoin ℚ {z | ∃ a ∈ nums, z = val a} := by
  obtain ⟨h1, h2⟩ := anfMulti_spec hO hrf rng hrats nums (fun a ha => (hl a ha).isIntegral) hN _ e
  refine ⟨h1, le_antisymm (IntermediateField.adjoin_simple_le_iff.2 h2) ?_⟩
  rw [IntermediateField.adjoin_le_iff]
  rintro z ⟨a, ha, rfl⟩
  obtain ⟨i, hi, rfl⟩ := List.getElem_of_mem ha
  have hlen := h1.length_eq
  have := (List.forall₂_iff_get.1 h1).2 i (by omega) hi
  simp only [List.get_eq_getElem] at this
  rw [← this]
  exact IntermediateField.algebra_adjoin_le_adjoin _ _ (aeval_mem_adjoin_singleton _ _)

/-- C187: when the operations of the algebraic numbers and `as_poly_expr` always return and the sequence of rational numbers that are tried has
no repetition, both functions return: the search for a generator reaches a right combination. -/
theorem C187_returns_when_as_poly_expr_does {A : Type} {O : AlgOps A} {val : A → ℂ} (hO : O.Sound val) {N : Nat}
    {ratFactor : List ℚ → Option (Option (Factored (List ℚ)))} (hrf : RatFactorOk N ratFactor) (rng : Nat → Nat → Nat → Nat → Nat → ℚ)
    {rats : Nat → Int × Int} (hrats : ∀ t, (rats t).2 ≠ 0) (hinj : Function.Injective fun t => ((rats t).1 : ℚ) / (rats t).2)
    (h0 : ∀ a, ∃ m, O.minPoly a = some m) (h1 : ∀ a b, ∃ c, O.add a b = some c) (h2 : ∀ a b, ∃ c, O.mul a b = some c)
    (hret : ∀ a b, ∃ r, asPolyExpr O ratFactor rng a b = some r) :
    (∀ a b, ((minpoly ℚ (val a)).natDegree * (minpoly ℚ (val b)).natDegree) ^ 2 < N → ∃ r, anfPair O ratFactor rng rats a b = some r) ∧
    ∀ nums : List A, nums ≠ [] → ((nums.map fun a => (minpoly ℚ (val a)).natDegree).prod) ^ 2 < N →
      ∃ r, anfMulti O ratFactor rng rats nums = some r := by
  have hint : ∀ a, IsIntegral ℚ (val a) := fun a => by
    obtain ⟨m, e⟩ := h0 a
    obtain ⟨k1, k2⟩ := hO.minPoly a m e
    exact isAlgebraic_iff_isIntegral.1 ⟨_, k1.ne_zero, k2⟩
  exact ⟨fun a b hN => anfPair_total hO hrf rng hrats hinj h0 h1 h2 hret (hint a) (hint b) hN,
    fun nums hne hN => anfMulti_total hO hrf rng hrats hinj h0 h1 h2 hret nums hne hN⟩

/-- the rational numbers as algebraic numbers -/
noncomputable def exAlg : AlgOps ℚ where
  minPoly q := some [-q, 1]
  applyPoly a p := some ((qp p).eval a)
  eq a b := some (decide (a = b))
  add a b := some (a + b)
  mul a b := some (a * b)
  ofRat q := q

theorem exAlg_sound : exAlg.Sound (fun q : ℚ => (q : ℂ)) where
  minPoly a m e := by
    cases e
    have h : polyVal (id : ℚ → ℚ) [-a, 1] = X - C a := by
      simp only [polyVal_cons, polyVal_nil, id, C_neg, C_1]
      ring
    rw [h]
    exact ⟨irreducible_X_sub_C a, by simp⟩
  applyPoly a p b e := by
    cases e
    have := aeval_algebraMap_apply ℂ a (qp p)
    rw [eq_ratCast, eq_ratCast, coe_aeval_eq_eval] at this
    exact this.symm
  eq a b r e := by
    cases e
    simp
  add a b c e := by
    cases e
    push_cast
    rfl
  mul a b c e := by
    cases e
    push_cast
    rfl
  ofRat q := rfl

/-- the hypotheses are met: with the rational numbers as algebraic numbers, all the functions return; `3` is found to be a polynomial of `2`, the
pair theorem for `2` and `3` and the theorem for the list `2, 3` give answers -/
example : ∃ ratFactor N, RatFactorOk N ratFactor ∧ RatFactorReturns N ratFactor ∧ exAlg.Sound (fun q : ℚ => (q : ℂ)) ∧
    (∃ n : ℕ, 1 ≤ n ∧ n < N) ∧ ∀ rng rats,
      (∀ a b, ∃ r, asPolyExpr exAlg ratFactor rng a b = some r) ∧
      (∃ p, asPolyExpr exAlg ratFactor rng 3 2 = some (some p)) ∧ (∃ r, anfPair exAlg ratFactor rng rats 2 3 = some r) ∧
      ∃ r, anfMulti exAlg ratFactor rng rats [2, 3] = some r := by
  obtain ⟨factor, h⟩ := exists_intUfd
  obtain ⟨rand, hr⟩ := exists_fair
  obtain ⟨k1, k2⟩ := C184_rat_factor_ok h hr
  revert k1 k2
  generalize (polyFactorizeByPrimitive ratOps intOps.bezout.toGcdOps (fun z : Int => (z : ℚ)) ratNumerator ratDenominator (bzFactorize factor rand)) = ratFactor
  intro k1 k2
  have hlt : 1 < machineRange := by norm_num [machineRange]
  have hm : ∀ q : ℚ, (minpoly ℚ (q : ℂ)).natDegree = 1 := fun q => by
    have := minpoly.eq_X_sub_C ℂ q
    rw [eq_ratCast] at this
    rw [this, natDegree_X_sub_C]
  refine ⟨_, machineRange, k1, k2, exAlg_sound, ⟨1, le_refl _, hlt⟩, fun rng rats => ?_⟩
  have hmain : ∀ a b : ℚ, ∃ p, asPolyExpr exAlg ratFactor rng a b = some (some p) := fun a b => by
    obtain ⟨r, hr⟩ := C186_rational_generator_returns exAlg_sound (fun a => ⟨_, rfl⟩) (fun a p => ⟨_, rfl⟩) (fun a b => ⟨_, rfl⟩) k1 k2 rng
      a b ⟨b, rfl⟩ (by rw [hm]; exact hlt)
    obtain ⟨-, h2⟩ := C186_as_poly_expr_partial exAlg_sound k1 rng a b (by rw [hm, hm]; exact hlt) r hr
    cases r with
    | some p => exact ⟨p, hr⟩
    | none =>
      refine absurd ?_ (h2.1 rfl)
      exact rat_mem _ a
  obtain ⟨p, hp⟩ := hmain 3 2
  have hpair : anfPair exAlg ratFactor rng rats 2 3 = some ((2 : ℚ), 1, 0, ratOps.polyVar, p) := by
    unfold anfPair
    rw [hp]
    rfl
  refine ⟨fun a b => (hmain a b).imp' some fun _ h => h, ⟨p, hp⟩, ⟨_, hpair⟩, ?_⟩
  have hf : exAlg.minPoly 2 = some [-2, 1] := rfl
  change ∃ r, [(3 : ℚ)].foldlM (anfMultiStep exAlg ratFactor rng rats) (2, [ratOps.polyVar]) = some r
  rw [List.foldlM_cons]
  unfold anfMultiStep
  rw [hpair]
  simp only [Option.bind_eq_bind, Option.bind_some, hf, List.mapM_cons, List.mapM_nil, List.foldlM_nil]
  have hq : ∃ z, ratOps.pqReduce [-2, 1] (ratOps.polyCompose ratOps.polyVar ratOps.polyVar) = some z := ⟨[2], by decide +kernel⟩
  obtain ⟨z, hz⟩ := hq
  rw [hz]
  exact ⟨_, rfl⟩

end Verif.Anf
