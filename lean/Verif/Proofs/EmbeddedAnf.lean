import Verif.Spec.EmbeddedAnf
import Verif.Proofs.AnfFactorYun
import Mathlib.FieldTheory.IntermediateField.Adjoin.Basic

/-! Algebraic numbers as polynomials in a generator. -/

namespace Verif.Anf
open Verif.Rings Polynomial

local notation "qp" => polyVal (id : ℚ → ℚ)

/-- the embedding of the number field given by a root -/
noncomputable def embed (f : List ℚ) (z : ℂ) (h : aeval z (qp f) = 0) : NumField f →+* ℂ := AdjoinRoot.lift (algebraMap ℚ ℂ) z h

theorem embed_el (f : List ℚ) (z : ℂ) (h : aeval z (qp f) = 0) (a : List ℚ) : embed f z h (el f a) = aeval z (qp a) := AdjoinRoot.lift_mk h _

theorem embed_alg (f : List ℚ) (z : ℂ) (h : aeval z (qp f) = 0) (q : ℚ) : embed f z h (algebraMap ℚ (NumField f) q) = q := by
  rw [← el_const, embed_el]
  simp [polyConst, polyVal]

theorem el_mk_poly (f : List ℚ) (p : List (List ℚ)) : polyVal (el f) p = (polyVal qp p).map (AdjoinRoot.mk (qp f)) := by
  have := polyVal_map (qp) (el f) id (AdjoinRoot.mk (qp f)) (fun c => rfl) p
  rwa [List.map_id] at this

section
variable {A : Type} {O : AlgOps A} {val : A → ℂ} (hO : O.Sound val)
include hO

theorem polyExprLoop_spec {f : List ℚ} [hirr : Fact (Irreducible (qp f))] {target generator : A} (h0 : aeval (val generator) (qp f) = 0) :
    ∀ (l : List (List (List ℚ) × Nat)) (r : Option (List ℚ)), polyExprLoop O target generator f l = some r →
      (∀ p, r = some p → aeval (val generator) (qp p) = val target) ∧
      (r = none → ∀ g ∈ l, ∀ a, polyVal (el f) g.1 = X - C a → embed f (val generator) h0 a ≠ val target) := by
  intro l
  induction l with
  | nil =>
    intro r e
    cases e
    exact ⟨fun p hp => (by cases hp), fun _ g hg => absurd hg List.not_mem_nil⟩
  | cons g l ih =>
    intro r e
    unfold polyExprLoop at e
    simp only [Option.bind_eq_bind] at e
    obtain ⟨lc, e1, e⟩ := Option.bind_eq_some_iff.1 e
    obtain ⟨_, e2, e⟩ := Option.bind_eq_some_iff.1 e
    obtain ⟨d, e3, e⟩ := Option.bind_eq_some_iff.1 e
    have hM := ratOps_models.toRing.toSemi.poly
    have hne : polyVal qp g.1 ≠ 0 := by
      intro h
      rw [hM.polyDegree_none g.1 h] at e3
      cases e3
    obtain ⟨lc', k1, k2⟩ := hM.polyLeadingCoeff_some g.1 hne
    rw [e1] at k1
    cases k1
    rw [hM.polyDegree_some g.1 hne] at e3
    have hd : (polyVal qp g.1).natDegree = d := Option.some.inj e3
    have hlc : AdjoinRoot.mk (qp f) (polyVal qp g.1).leadingCoeff = 1 := by
      have h1 : (anfOps f).equal lc (anfOps f).one = true := by
        by_contra hc
        simp [assertThat, hc] at e2
      have h2 := ((anfOps_models (f := f)).toRing.toSemi.equal lc (anfOps f).one).1 h1
      rw [(anfOps_models (f := f)).toRing.toSemi.one] at h2
      rw [← k2]
      exact h2
    have hdeg : (polyVal (el f) g.1).natDegree = d := by
      rw [el_mk_poly, natDegree_map_of_leadingCoeff_ne_zero _ (by rw [hlc]; exact one_ne_zero), hd]
    split at e
    · rename_i h1
      obtain ⟨x, e4, e⟩ := Option.bind_eq_some_iff.1 e
      obtain ⟨b, e5, e⟩ := Option.bind_eq_some_iff.1 e
      have hx := hO.applyPoly _ _ _ e4
      have hb := hO.eq _ _ _ e5
      split at e
      · rename_i hbt
        cases e
        refine ⟨fun p hp => ?_, fun h => by cases h⟩
        cases hp
        rw [← hx]
        exact hb.1 hbt
      · rename_i hbt
        obtain ⟨i1, i2⟩ := ih r e
        refine ⟨i1, fun hr w hw a ha => ?_⟩
        rcases List.mem_cons.1 hw with rfl | hw
        · intro hc
          apply hbt
          rw [hb, hx, ← embed_el f _ h0, (anfOps_models (f := f)).toRing.neg]
          have h3 : el f (ratOps.toSemiRingOps.poly.polyCoeff w.1 0) = (polyVal (el f) w.1).coeff 0 := by
            rw [el_mk_poly, coeff_map, ← hM.polyCoeff]
            rfl
          rw [h3, ha, ← hc]
          simp
        · exact i2 hr w hw a ha
    · rename_i h1
      obtain ⟨i1, i2⟩ := ih r e
      refine ⟨i1, fun hr w hw a ha => ?_⟩
      rcases List.mem_cons.1 hw with rfl | hw
      · rw [ha, natDegree_X_sub_C] at hdeg
        exact absurd hdeg.symm h1
      · exact i2 hr w hw a ha

theorem minPoly_degree {a : A} {m : List ℚ} (e : O.minPoly a = some m) : (qp m).natDegree = (minpoly ℚ (val a)).natDegree := by
  obtain ⟨h1, h2⟩ := hO.minPoly a m e
  rw [← minpoly.eq_of_irreducible h1 h2, natDegree_mul_C (inv_ne_zero (leadingCoeff_ne_zero.2 h1.ne_zero))]

theorem asPolyExpr_spec {N : Nat} {ratFactor : List ℚ → Option (Option (Factored (List ℚ)))} (hrf : RatFactorOk N ratFactor)
    (rng : Nat → Nat → Nat → Nat → Nat → ℚ) (target generator : A)
    (hN : (minpoly ℚ (val generator)).natDegree * (minpoly ℚ (val target)).natDegree < N) (r : Option (List ℚ))
    (e : asPolyExpr O ratFactor rng target generator = some r) :
    (∀ p, r = some p → aeval (val generator) (qp p) = val target) ∧
    (r = none → ¬ ∃ P : ℚ[X], aeval (val generator) P = val target) := by
  unfold asPolyExpr at e
  simp only [Option.bind_eq_bind] at e
  obtain ⟨f, e1, e⟩ := Option.bind_eq_some_iff.1 e
  obtain ⟨t, e2, e⟩ := Option.bind_eq_some_iff.1 e
  obtain ⟨F, e3, e⟩ := Option.bind_eq_some_iff.1 e
  obtain ⟨F', e4, e5⟩ := Option.bind_eq_some_iff.1 e3
  obtain rfl : F' = some F := e5
  obtain ⟨f1, f2⟩ := hO.minPoly _ _ e1
  obtain ⟨t1, t2⟩ := hO.minPoly _ _ e2
  haveI : Fact (Irreducible (qp f)) := ⟨f1⟩
  have hmap : polyVal (el f) (t.map polyConst) = (qp t).map (algebraMap ℚ (NumField f)) := polyVal_consts t
  have hne : polyVal (el f) (t.map polyConst) ≠ 0 := by
    rw [hmap]
    exact (Polynomial.map_ne_zero_iff (algebraMap ℚ (NumField f)).injective).2 t1.ne_zero
  obtain ⟨-, k⟩ := anfFactor_spec hrf rng (t.map polyConst) (by
    rw [hmap, natDegree_map, minPoly_degree hO e1, minPoly_degree hO e2]
    exact hN) _ e4
  obtain ⟨G, hG, k1, k2⟩ := k hne
  cases hG
  obtain ⟨l1, l2⟩ := polyExprLoop_spec hO f2 _ r e
  refine ⟨l1, fun hr => ?_⟩
  rintro ⟨P, hP⟩
  let φ := embed f (val generator) f2
  let a : NumField f := AdjoinRoot.mk (qp f) P
  have ha : φ a = val target := by
    rw [← hP]
    exact AdjoinRoot.lift_mk f2 P
  have hroot : ((qp t).map (algebraMap ℚ (NumField f))).IsRoot a := by
    apply φ.injective
    rw [map_zero, eval_map, hom_eval₂, ha]
    have hc : φ.comp (algebraMap ℚ (NumField f)) = algebraMap ℚ ℂ := Subsingleton.elim _ _
    rw [hc]
    exact t2
  have hdvd : X - C a ∣ F.denote (polyVal (el f)) := by
    rw [k2.dvd_iff_dvd_right, hmap]
    exact dvd_iff_isRoot.2 hroot
  have hp : Prime (X - C a) := prime_X_sub_C a
  unfold Factored.denote at hdvd
  rcases hp.dvd_or_dvd hdvd with h | h
  · exact hp.not_unit (isUnit_of_dvd_unit h k1.unit)
  · obtain ⟨y, hy, hd⟩ := (Prime.dvd_prod_iff hp).1 h
    obtain ⟨g, hg, rfl⟩ := List.mem_map.1 hy
    have hd' := hp.dvd_of_dvd_pow hd
    have hass := hp.irreducible.associated_of_dvd (k1.irreducible g hg) hd'
    have := eq_of_monic_of_associated (monic_X_sub_C a) (k1.monic g hg) hass
    exact l2 hr g hg a this.symm ha

omit hO in
theorem bRelGen_spec {f aRel : List ℚ} (hirr : Irreducible (qp f)) {z a b : ℂ} (h0 : aeval z (qp f) = 0) {x y : Int} (hy : y ≠ 0)
    (hz : z = x * a + y * b) (ha : aeval z (qp aRel) = a) : aeval z (qp (bRelGen f aRel x y)) = b := by
  haveI : Fact (Irreducible (qp f)) := ⟨hirr⟩
  have hS := (anfOps_models (f := f)).toRing.toSemi
  rw [← embed_el f z h0]
  unfold bRelGen
  rw [hS.mul, hS.add, hS.mul, el_const, el_const, map_mul, map_add, map_mul, embed_el, embed_el, embed_alg, embed_alg, ha]
  have hX : aeval z (qp ratOps.polyVar) = z := by
    rw [ratOps_models.toRing.toSemi.polyVar, aeval_X]
  rw [hX]
  have hy' : (y : ℂ) ≠ 0 := by exact_mod_cast hy
  rw [hz]
  push_cast
  field_simp
  ring

omit hO in
theorem rat_mem (K : IntermediateField ℚ ℂ) (x : ℚ) : (x : ℂ) ∈ K := by
  have := K.algebraMap_mem x
  rwa [eq_ratCast] at this

omit hO in
theorem combo_degree {a b c : ℂ} (ha : IsIntegral ℚ a) (hb : IsIntegral ℚ b) {x y : ℚ} (hc : c = x * a + y * b) :
    IsIntegral ℚ c ∧ (minpoly ℚ c).natDegree ≤ (minpoly ℚ a).natDegree * (minpoly ℚ b).natDegree := by
  have hci : IsIntegral ℚ c := by
    rw [hc]
    exact (((isIntegral_algebraMap (x := x)).mul ha)).add ((isIntegral_algebraMap (x := y)).mul hb)
  refine ⟨hci, ?_⟩
  haveI := IntermediateField.adjoin.finiteDimensional ha
  haveI := IntermediateField.adjoin.finiteDimensional hb
  rw [← IntermediateField.adjoin.finrank hci, ← IntermediateField.adjoin.finrank ha, ← IntermediateField.adjoin.finrank hb]
  refine le_trans ?_ (IntermediateField.finrank_sup_le (IntermediateField.adjoin ℚ {a}) (IntermediateField.adjoin ℚ {b}))
  have hle : IntermediateField.adjoin ℚ {c} ≤ IntermediateField.adjoin ℚ {a} ⊔ IntermediateField.adjoin ℚ {b} := by
    rw [IntermediateField.adjoin_simple_le_iff, hc]
    refine add_mem (mul_mem ?_ ?_) (mul_mem ?_ ?_)
    · exact rat_mem _ x
    · exact (le_sup_left : IntermediateField.adjoin ℚ {a} ≤ _) (IntermediateField.mem_adjoin_simple_self ℚ a)
    · exact rat_mem _ y
    · exact (le_sup_right : IntermediateField.adjoin ℚ {b} ≤ _) (IntermediateField.mem_adjoin_simple_self ℚ b)
  haveI : FiniteDimensional ℚ (IntermediateField.adjoin ℚ {a} ⊔ IntermediateField.adjoin ℚ {b} : IntermediateField ℚ ℂ) := inferInstance
  exact Submodule.finrank_mono (s := (IntermediateField.adjoin ℚ {c}).toSubmodule)
    (t := (IntermediateField.adjoin ℚ {a} ⊔ IntermediateField.adjoin ℚ {b} : IntermediateField ℚ ℂ).toSubmodule) hle

/-- what the answer of the primitive element theorem for a pair means -/
def PairOk (val : A → ℂ) (a b : A) (r : A × Int × Int × List ℚ × List ℚ) : Prop :=
  val r.1 = r.2.1 * val a + r.2.2.1 * val b ∧ aeval (val r.1) (qp r.2.2.2.1) = val a ∧ aeval (val r.1) (qp r.2.2.2.2) = val b

theorem pairSearch_spec {N : Nat} {ratFactor : List ℚ → Option (Option (Factored (List ℚ)))} (hrf : RatFactorOk N ratFactor)
    (rng : Nat → Nat → Nat → Nat → Nat → ℚ) {rats : Nat → Int × Int} (hrats : ∀ t, (rats t).2 ≠ 0) {a b : A} (ha : IsIntegral ℚ (val a))
    (hb : IsIntegral ℚ (val b)) (hN : ((minpoly ℚ (val a)).natDegree * (minpoly ℚ (val b)).natDegree) ^ 2 < N) (t : Nat)
    (r : A × Int × Int × List ℚ × List ℚ) (e : pairSearch O ratFactor rng rats a b t = some r) : PairOk val a b r := by
  refine pairSearch.partial_correctness O ratFactor rng rats a b (motive := fun _ r => PairOk val a b r) ?_ t r e
  intro rec ih t r e
  simp only [Option.bind_eq_bind] at e
  obtain ⟨xa, e1, e⟩ := Option.bind_eq_some_iff.1 e
  obtain ⟨yb, e2, e⟩ := Option.bind_eq_some_iff.1 e
  obtain ⟨gen, e3, e⟩ := Option.bind_eq_some_iff.1 e
  obtain ⟨s, e4, e⟩ := Option.bind_eq_some_iff.1 e
  have hg : val gen = ((rats t).1 : ℚ) * val a + ((rats t).2 : ℚ) * val b := by
    rw [hO.add _ _ _ e3, hO.mul _ _ _ e1, hO.mul _ _ _ e2, hO.ofRat, hO.ofRat]
  have hdeg := (combo_degree ha hb hg).2
  have hpa := minpoly.natDegree_pos ha
  have hpb := minpoly.natDegree_pos hb
  obtain ⟨s1, -⟩ := asPolyExpr_spec hO hrf rng a gen (by
    refine lt_of_le_of_lt ?_ hN
    rw [pow_two]
    exact Nat.mul_le_mul hdeg (Nat.le_mul_of_pos_right _ hpb)) s e4
  cases s with
  | none => exact ih _ r e
  | some aRel =>
    obtain ⟨f, e5, e⟩ := Option.bind_eq_some_iff.1 e
    cases e
    obtain ⟨f1, f2⟩ := hO.minPoly _ _ e5
    have hg' : val gen = ((rats t).1 : ℂ) * val a + ((rats t).2 : ℂ) * val b := by
      rw [hg]; push_cast; rfl
    exact ⟨hg', s1 _ rfl, bRelGen_spec f1 f2 (hrats t) hg' (s1 _ rfl)⟩

theorem anfPair_spec {N : Nat} {ratFactor : List ℚ → Option (Option (Factored (List ℚ)))} (hrf : RatFactorOk N ratFactor)
    (rng : Nat → Nat → Nat → Nat → Nat → ℚ) {rats : Nat → Int × Int} (hrats : ∀ t, (rats t).2 ≠ 0) {a b : A} (ha : IsIntegral ℚ (val a))
    (hb : IsIntegral ℚ (val b)) (hN : ((minpoly ℚ (val a)).natDegree * (minpoly ℚ (val b)).natDegree) ^ 2 < N)
    (r : A × Int × Int × List ℚ × List ℚ) (e : anfPair O ratFactor rng rats a b = some r) : PairOk val a b r := by
  have hX : ∀ z : ℂ, aeval z (qp ratOps.polyVar) = z := fun z => by rw [ratOps_models.toRing.toSemi.polyVar, aeval_X]
  have hpa := minpoly.natDegree_pos ha
  have hpb := minpoly.natDegree_pos hb
  have hN1 : (minpoly ℚ (val a)).natDegree * (minpoly ℚ (val b)).natDegree < N := lt_of_le_of_lt (Nat.le_self_pow two_ne_zero _) hN
  unfold anfPair at e
  simp only [Option.bind_eq_bind] at e
  obtain ⟨s, e1, e⟩ := Option.bind_eq_some_iff.1 e
  cases s with
  | some q =>
    cases e
    exact ⟨by simp, hX _, (asPolyExpr_spec hO hrf rng b a hN1 _ e1).1 _ rfl⟩
  | none =>
    obtain ⟨s, e2, e⟩ := Option.bind_eq_some_iff.1 e
    cases s with
    | some p =>
      cases e
      exact ⟨by simp, (asPolyExpr_spec hO hrf rng a b (by rw [mul_comm]; exact hN1) _ e2).1 _ rfl, hX _⟩
    | none => exact pairSearch_spec hO hrf rng hrats ha hb hN 0 r e

theorem anfMulti_fold {N : Nat} {ratFactor : List ℚ → Option (Option (Factored (List ℚ)))} (hrf : RatFactorOk N ratFactor)
    (rng : Nat → Nat → Nat → Nat → Nat → ℚ) {rats : Nat → Int × Int} (hrats : ∀ t, (rats t).2 ≠ 0) (l : List A)
    (hl : ∀ a ∈ l, IsIntegral ℚ (val a)) (done : List A) (st r : A × List (List ℚ)) (hi : IsIntegral ℚ (val st.1))
    (hN : ((minpoly ℚ (val st.1)).natDegree * (l.map fun a => (minpoly ℚ (val a)).natDegree).prod) ^ 2 < N)
    (hst : List.Forall₂ (fun p a => aeval (val st.1) (qp p) = val a) st.2 done)
    (hmem : val st.1 ∈ IntermediateField.adjoin ℚ {z | ∃ a ∈ done, z = val a})
    (e : l.foldlM (anfMultiStep O ratFactor rng rats) st = some r) :
    List.Forall₂ (fun p a => aeval (val r.1) (qp p) = val a) r.2 (done ++ l) ∧
      val r.1 ∈ IntermediateField.adjoin ℚ {z | ∃ a ∈ done ++ l, z = val a} := by
  induction l generalizing st done with
  | nil =>
    cases e
    rw [List.append_nil]
    exact ⟨hst, hmem⟩
  | cons num l ih =>
    rw [List.foldlM_cons] at e
    simp only [Option.bind_eq_bind] at e
    obtain ⟨st', s1, e⟩ := Option.bind_eq_some_iff.1 e
    unfold anfMultiStep at s1
    simp only [Option.bind_eq_bind] at s1
    obtain ⟨q, q1, s1⟩ := Option.bind_eq_some_iff.1 s1
    obtain ⟨f, q2, s1⟩ := Option.bind_eq_some_iff.1 s1
    obtain ⟨ps, q3, s1⟩ := Option.bind_eq_some_iff.1 s1
    cases s1
    have hnum := hl num List.mem_cons_self
    have hpos : 0 < (l.map fun a => (minpoly ℚ (val a)).natDegree).prod := by
      refine List.prod_pos fun x hx => ?_
      obtain ⟨a, ha, rfl⟩ := List.mem_map.1 hx
      exact minpoly.natDegree_pos (hl a (List.mem_cons_of_mem _ ha))
    rw [List.map_cons, List.prod_cons, ← mul_assoc] at hN
    obtain ⟨p1, p2, p3⟩ := anfPair_spec hO hrf rng hrats hi hnum
      (lt_of_le_of_lt (Nat.pow_le_pow_left (Nat.le_mul_of_pos_right _ hpos) 2) hN) q q1
    have hg : val q.1 = (q.2.1 : ℚ) * val st.1 + (q.2.2.1 : ℚ) * val num := by rw [p1]; push_cast; rfl
    obtain ⟨g1, g2⟩ := combo_degree hi hnum hg
    obtain ⟨f1, f2⟩ := hO.minPoly _ _ q2
    haveI : Fact (Irreducible (qp f)) := ⟨f1⟩
    have hdone : IntermediateField.adjoin ℚ {z | ∃ a ∈ done, z = val a} ≤ IntermediateField.adjoin ℚ {z | ∃ a ∈ done ++ [num], z = val a} := by
      refine IntermediateField.adjoin.mono _ _ _ ?_
      rintro z ⟨a, ha, rfl⟩
      exact ⟨a, List.mem_append_left _ ha, rfl⟩
    have key := ih (fun a ha => hl a (List.mem_cons_of_mem _ ha)) (done ++ [num]) (q.1, ps ++ [q.2.2.2.2]) g1
      (lt_of_le_of_lt (Nat.pow_le_pow_left (Nat.mul_le_mul_right _ g2) 2) hN) (by
        refine List.rel_append ?_ (List.Forall₂.cons p3 List.Forall₂.nil)
        have h3 := mapM_some_getElem q3
        rw [List.forall₂_iff_get] at h3 hst ⊢
        refine ⟨h3.1.symm.trans hst.1, fun i i1 i2 => ?_⟩
        have c1 := h3.2 i (by rw [h3.1]; exact i1) i1
        have c2 := hst.2 i (by rw [h3.1]; exact i1) i2
        change aeval (val q.1) (qp (ps.get ⟨i, i1⟩)) = _
        rw [← embed_el f _ f2, ← pqReduce_el _ _ c1, embed_el, ratOps_models.toRing.toSemi.polyCompose, aeval_comp, p2, c2]) (by
        change val q.1 ∈ _
        rw [hg]
        refine add_mem (mul_mem ?_ (hdone hmem)) (mul_mem ?_ ?_)
        · exact rat_mem _ (q.2.1 : ℚ)
        · exact rat_mem _ (q.2.2.1 : ℚ)
        · exact IntermediateField.subset_adjoin _ _ ⟨num, by simp, rfl⟩) e
    rw [List.append_assoc, List.singleton_append] at key
    exact key

theorem anfMulti_spec {N : Nat} {ratFactor : List ℚ → Option (Option (Factored (List ℚ)))} (hrf : RatFactorOk N ratFactor)
    (rng : Nat → Nat → Nat → Nat → Nat → ℚ) {rats : Nat → Int × Int} (hrats : ∀ t, (rats t).2 ≠ 0) (l : List A)
    (hl : ∀ a ∈ l, IsIntegral ℚ (val a)) (hN : ((l.map fun a => (minpoly ℚ (val a)).natDegree).prod) ^ 2 < N)
    (r : A × List (List ℚ)) (e : anfMulti O ratFactor rng rats l = some r) :
    List.Forall₂ (fun p a => aeval (val r.1) (qp p) = val a) r.2 l ∧
      val r.1 ∈ IntermediateField.adjoin ℚ {z | ∃ a ∈ l, z = val a} := by
  cases l with
  | nil => cases e
  | cons a l =>
    exact anfMulti_fold hO hrf rng hrats l (fun b hb => hl b (List.mem_cons_of_mem _ hb)) [a] (a, [ratOps.polyVar]) r
      (hl a List.mem_cons_self) hN
      (List.Forall₂.cons (by rw [ratOps_models.toRing.toSemi.polyVar, aeval_X]) List.Forall₂.nil)
      (IntermediateField.subset_adjoin _ _ ⟨a, by simp, rfl⟩) e

end
end Verif.Anf
