import Verif.Model.PolyTools
import Verif.Proofs.MultiPolyRes
import Verif.Proofs.ResultantRoots
import Verif.Proofs.RealAlgOk
import Verif.Props.MultiPoly
import Mathlib.Algebra.Polynomial.Lifts

/-!
# The polynomials of sums and products of roots
-/

namespace Verif.RealRoots

open Verif.Rings

/-- The value of a polynomial in several variables over the integers. -/
noncomputable abbrev ival : MPoly Int → MvPolynomial ℕ ℤ := mpVal (id : Int → Int)

theorem intDom : intOps.toDomainOps.Models (id : Int → Int) := intOps_models.toDomain

/-- A polynomial in one variable as a polynomial in the variable `z`. -/
noncomputable def inVar (z : ℕ) : Polynomial ℤ →+* MvPolynomial ℕ ℤ := Polynomial.eval₂RingHom MvPolynomial.C (MvPolynomial.X z)

theorem inVar_C (z : ℕ) (n : ℤ) : inVar z (Polynomial.C n) = MvPolynomial.C n := by simp [inVar]

theorem inVar_X (z : ℕ) : inVar z Polynomial.X = MvPolynomial.X z := by simp [inVar]

theorem inVar_injective (z : ℕ) : Function.Injective (inVar z) := by
  have := transcendental_iff_injective.1 (MvPolynomial.transcendental_X ℤ (σ := ℕ) z)
  intro a b hab
  apply this
  rw [Polynomial.aeval_def, Polynomial.aeval_def]
  exact hab

theorem inVar_supported (z : ℕ) {W : Set ℕ} (hz : z ∈ W) (p : Polynomial ℤ) : inVar z p ∈ MvPolynomial.supported ℤ W := by
  rw [inVar, Polynomial.coe_eval₂RingHom, Polynomial.eval₂_eq_sum_range]
  refine sum_mem fun i _ => mul_mem ?_ (pow_mem (MvPolynomial.X_mem_supported.2 hz) _)
  exact (MvPolynomial.supported ℤ W).algebraMap_mem _

/-- `expand` is the only way to write a polynomial in one of its variables. -/
theorem expand_unique {p : MPoly Int} (hp : p.WF) (x : ℕ) (G : Polynomial (MvPolynomial ℕ ℤ))
    (hG : ∀ n, G.coeff n ∈ MvPolynomial.supported ℤ ({x}ᶜ : Set ℕ)) (he : G.eval (MvPolynomial.X x) = ival p) :
    polyVal ival (intOps.mpExpand p x) = G := by
  obtain ⟨L, h1, h2⟩ := expand_sub intDom hp x (W := ({x}ᶜ : Set ℕ)) fun y _ hy => hy
  obtain ⟨G', hG'⟩ : ∃ G' : Polynomial (MvPolynomial.supported ℤ ({x}ᶜ : Set ℕ)),
      G'.map (MvPolynomial.supported ℤ ({x}ᶜ : Set ℕ)).val.toRingHom = G := by
    have := (Polynomial.lifts_iff_coeff_lifts (f := (MvPolynomial.supported ℤ ({x}ᶜ : Set ℕ)).val.toRingHom) G).2
      fun n => ⟨⟨_, hG n⟩, rfl⟩
    rw [Polynomial.lifts_iff_set_range] at this
    exact this
  have h3 : plugIn ({x}ᶜ : Set ℕ) x G' = ival p := by
    rw [plugIn, Polynomial.coe_eval₂RingHom, Polynomial.eval₂_eq_eval_map, hG', he]
  have h4 := plugIn_injective (R := ℤ) (W := ({x}ᶜ : Set ℕ)) (x := x) (by simp) (h2.trans h3.symm)
  rw [← h1, ← hG', ← h4]
  exact polyVal_map (subVal (id : Int → Int) ({x}ᶜ : Set ℕ)) ival Subtype.val
    (MvPolynomial.supported ℤ ({x}ᶜ : Set ℕ)).val.toRingHom (fun c => rfl) L

theorem constPoly_val (z : ℕ) (p : List Int) : polyVal ival (p.map MPoly.constant) = ((ipoly p).map Polynomial.C).map (inVar z) := by
  rw [Polynomial.map_map]
  refine polyVal_map (id : Int → Int) ival MPoly.constant ((inVar z).comp Polynomial.C) (fun c => ?_) p
  rw [RingHom.comp_apply, inVar_C, MPoly.constant, ival, mpVal_single, monoVal_one]; rfl

theorem constPoly_wf (p : List Int) : ∀ c ∈ p.map (MPoly.constant : Int → MPoly Int), c.WF := by
  intro c hc
  obtain ⟨d, -, rfl⟩ := List.mem_map.1 hc
  exact MPoly.single_wf Mono.one_wf

theorem var_val (x : ℕ) : ival (intOps.mpVar x) = MvPolynomial.X x := by
  rw [SemiRingOps.mpVar, SemiRingOps.mpVarPow, ival, mpVal_single, monoVal_new, intOps_models.toSemi.one]
  simp [monoVal, MvPolynomial.X]

theorem evaluate_val (H : HashOrder) (a : MPoly Int) (L : List (MPoly Int)) (hL : ∀ c ∈ L, c.WF) :
    ((intMulti H).polyEvaluate L a).WF ∧ ival ((intMulti H).polyEvaluate L a) = (polyVal ival L).eval (ival a) := by
  induction L with
  | nil => exact ⟨MPoly.nil_wf, by simp [SemiRingOps.polyEvaluate, intMulti, DomainOps.multi, RingOps.multi, SemiRingOps.multi, mpVal_nil]⟩
  | cons c L ih =>
    obtain ⟨h1, h2⟩ := ih fun c hc => hL c (List.mem_cons_of_mem _ hc)
    rw [SemiRingOps.polyEvaluate_append]
    refine ⟨intOps_models.toSemi.mpAdd_wf (intOps_models.toSemi.mpMul_wf H _ _) (hL c List.mem_cons_self), ?_⟩
    change mpVal id (intOps.mpAdd (intOps.mpMul H _ _) c) = _
    rw [intOps_models.toSemi.mpAdd_val, intOps_models.toSemi.mpMul_val]
    rw [show mpVal id ((intMulti H).polyEvaluate L a) = _ from h2, polyVal_cons]
    simp only [Polynomial.eval_add, Polynomial.eval_C, Polynomial.eval_mul, Polynomial.eval_X]
    ring

theorem exists_irreducible_root {f : Polynomial ℤ} (h0 : f ≠ 0) {γ : ℂ} (hγ : (f.map (Int.castRingHom ℂ)).eval γ = 0) :
    ∃ π : Polynomial ℤ, Irreducible π ∧ 0 < π.natDegree ∧ π ∣ f ∧ (π.map (Int.castRingHom ℂ)).eval γ = 0 := by
  induction f using UniqueFactorizationMonoid.induction_on_prime with
  | h₁ => exact absurd rfl h0
  | h₂ u hu =>
    exfalso
    have := (hu.map (Polynomial.mapRingHom (Int.castRingHom ℂ))).map (Polynomial.evalRingHom γ)
    simp only [Polynomial.coe_mapRingHom, Polynomial.coe_evalRingHom, hγ] at this
    exact not_isUnit_zero this
  | h₃ a π ha hπ ih =>
    rw [Polynomial.map_mul, Polynomial.eval_mul, mul_eq_zero] at hγ
    rcases hγ with h | h
    · refine ⟨π, hπ.irreducible, ?_, Dvd.intro a rfl, h⟩
      rw [Nat.pos_iff_ne_zero]
      intro hd
      rw [Polynomial.eq_C_of_natDegree_eq_zero hd, Polynomial.map_C, Polynomial.eval_C] at h
      apply hπ.ne_zero
      rw [Polynomial.eq_C_of_natDegree_eq_zero hd, show π.coeff 0 = 0 from castC_inj (by rw [h, map_zero]), Polynomial.C_0]
    · obtain ⟨ρ, r1, r2, r3, r4⟩ := ih ha h
      exact ⟨ρ, r1, r2, r3.mul_left _, r4⟩

theorem atPoint_eval (σ : Polynomial ℤ) (w : ℂ) : (σ.map (Int.castRingHom ℂ)).eval w = atPoint w σ := by
  rw [atPoint, Polynomial.coe_eval₂RingHom, Polynomial.eval₂_eq_eval_map]

/-- What `resultantIn` finds. -/
theorem resultantIn_spec (H : HashOrder) (z : ℕ) {P Q : List (MPoly Int)} (hP : ∀ c ∈ P, c.WF) (hQ : ∀ c ∈ Q, c.WF)
    {f g : Polynomial (Polynomial ℤ)} (hf : polyVal ival P = f.map (inVar z)) (hg : polyVal ival Q = g.map (inVar z))
    (hf0 : f ≠ 0) (hg0 : g ≠ 0) (h1 : f.resultant g ≠ 0) (h2 : g.resultant f ≠ 0) :
    ∃ r σ, resultantIn H z P Q = some r ∧ (σ = f.resultant g ∨ σ = g.resultant f) ∧ (ipoly r).IsPrimitive ∧ Squarefree (ipoly r) ∧
      ∀ γ : ℂ, (cval r).eval γ = 0 ↔ atPoint γ σ = 0 := by
  obtain ⟨s, s1, s2, s3⟩ := mpResultant_spec intDom H P Q hP hQ
    (by rw [show polyVal (mpVal (id : Int → Int)) P = _ from hf]; exact (Polynomial.map_ne_zero_iff (inVar_injective z)).2 hf0)
    (by rw [show polyVal (mpVal (id : Int → Int)) Q = _ from hg]; exact (Polynomial.map_ne_zero_iff (inVar_injective z)).2 hg0)
  obtain ⟨σ, hσ, hσv, hσ0⟩ : ∃ σ, (σ = f.resultant g ∨ σ = g.resultant f) ∧ ival s = inVar z σ ∧ σ ≠ 0 := by
    rw [show polyVal (mpVal (id : Int → Int)) P = _ from hf, show polyVal (mpVal (id : Int → Int)) Q = _ from hg] at s3
    simp only [Polynomial.natDegree_map_eq_of_injective (inVar_injective z), Polynomial.resultant_map_map] at s3
    rcases s3 with s3 | s3
    · exact ⟨_, .inl rfl, s3, h1⟩
    · exact ⟨_, .inr rfl, s3, h2⟩
  have hex : polyVal ival (intOps.mpExpand s z) = σ.map MvPolynomial.C := by
    refine expand_unique s2 z _ (fun n => ?_) ?_
    · rw [Polynomial.coeff_map]; exact (MvPolynomial.supported ℤ _).algebraMap_mem _
    · rw [hσv, inVar, Polynomial.coe_eval₂RingHom, Polynomial.eval₂_eq_eval_map]
  have hconst : ∀ c ∈ intOps.mpExpand s z, ∃ a, intOps.mpAsConstant c = some a ∧ ival c = MvPolynomial.C a := by
    intro c hc
    obtain ⟨w1, w2, -⟩ := intOps_models.toSemi.mpExpand_coeffs z s2.mono c hc
    obtain ⟨-, -, -, r1, r2⟩ := C108_read intOps_models.toSemi w1 w2
    cases hn : intOps.mpAsConstant c with
    | some a => exact ⟨a, rfl, r1 a hn⟩
    | none =>
      obtain ⟨i, hi, rfl⟩ := List.getElem_of_mem hc
      refine absurd ?_ (r2 hn (σ.coeff i))
      rw [← Polynomial.coeff_map, ← hex, coeff_polyVal_lt _ _ _ hi]
  obtain ⟨u, u1, u2⟩ : ∃ u, (intOps.mpExpand s z).mapM (fun c => intOps.mpAsConstant c) = some u ∧
      (ipoly u).map MvPolynomial.C = polyVal ival (intOps.mpExpand s z) := by
    generalize intOps.mpExpand s z = L at hconst
    clear hex
    induction L with
    | nil => exact ⟨[], rfl, by simp⟩
    | cons c L ih =>
      obtain ⟨u, u1, u2⟩ := ih fun c hc => hconst c (List.mem_cons_of_mem _ hc)
      obtain ⟨a, a1, a2⟩ := hconst c List.mem_cons_self
      refine ⟨a :: u, by simp [List.mapM_cons, a1, u1], ?_⟩
      rw [polyVal_cons ival, ← u2, a2]
      simp
  have huσ : ipoly u = σ := by
    apply Polynomial.map_injective _ (MvPolynomial.C_injective ℕ ℤ)
    rw [u2, hex]
  obtain ⟨q, q1, q2, q3, q4, q5⟩ := polyPrimSquarefreePart_spec intGcd_models u (by rw [show polyVal _ u = σ from huσ]; exact hσ0)
  refine ⟨q, σ, ?_, hσ, q2, q3, fun γ => ?_⟩
  · rw [resultantIn]
    rw [show (intMulti H).polyResultant P Q = some s from s1]
    simp only [Option.bind_eq_bind, Option.bind_some, u1, q1]
  · rw [← atPoint_eval]
    rw [show polyVal _ u = σ from huσ] at q4 q5
    constructor
    · intro h
      obtain ⟨k, hk⟩ := q4
      rw [hk, Polynomial.map_mul, Polynomial.eval_mul]
      exact mul_eq_zero_of_left h _
    · intro h
      obtain ⟨π, p1, p2, p3, p4⟩ := exists_irreducible_root hσ0 h
      obtain ⟨k, hk⟩ := q5 π p1 p2 p3
      rw [cval, hk, Polynomial.map_mul, Polynomial.eval_mul, p4, zero_mul]

theorem opPoly_common (H : HashOrder) (z : ℕ) {P Q : List (MPoly Int)} (hP : ∀ c ∈ P, c.WF) (hQ : ∀ c ∈ Q, c.WF)
    {f g : Polynomial (Polynomial ℤ)} (hf : polyVal ival P = f.map (inVar z)) (hg : polyVal ival Q = g.map (inVar z))
    (hf0 : f ≠ 0) (hg0 : g ≠ 0) (h1 : f.resultant g ≠ 0) (h2 : g.resultant f ≠ 0) (S : ℂ → Prop)
    (hS : ∀ w, ¬ S w → atPoint w (f.resultant g) ≠ 0 ∧ atPoint w (g.resultant f) ≠ 0)
    (hS' : ∀ w, S w → f.natDegree ≠ 0 ∧ ∃ y, (f.map (atPoint w)).eval y = 0 ∧ (g.map (atPoint w)).eval y = 0) :
    ∃ r, resultantIn H z P Q = some r ∧ (ipoly r).IsPrimitive ∧ Squarefree (ipoly r) ∧ ∀ w : ℂ, (cval r).eval w = 0 ↔ S w := by
  obtain ⟨r, σ, r1, r2, r3, r4, r5⟩ := resultantIn_spec H z hP hQ hf hg hf0 hg0 h1 h2
  refine ⟨r, r1, r3, r4, fun w => ?_⟩
  rw [r5]
  constructor
  · intro h0
    by_contra hn
    obtain ⟨e1, e2⟩ := hS w hn
    rcases r2 with rfl | rfl
    · exact e1 h0
    · exact e2 h0
  · intro hw
    obtain ⟨hd, y, e1, e2⟩ := hS' w hw
    rcases r2 with rfl | rfl
    · exact resultant_at_common w y (.inl hd) e1 e2
    · exact resultant_at_common w y (.inr hd) e2 e1

theorem natDegree_ne_of_root {p : List Int} (hp : ipoly p ≠ 0) {x : ℂ} (hx : (cval p).eval x = 0) :
    ((ipoly p).map (Polynomial.C : ℤ →+* Polynomial ℤ)).natDegree ≠ 0 := by
  rw [Polynomial.natDegree_map_eq_of_injective Polynomial.C_injective]
  intro h0
  rw [cval, Polynomial.eq_C_of_natDegree_eq_zero h0, Polynomial.map_C, Polynomial.eval_C] at hx
  apply hp
  rw [Polynomial.eq_C_of_natDegree_eq_zero h0, show (ipoly p).coeff 0 = 0 from castC_inj (by rw [hx, map_zero]), Polynomial.C_0]

theorem cval_ofReal (p : List Int) (x : ℝ) : (cval p).eval (x : ℂ) = (((rv p).eval x : ℝ) : ℂ) := by
  rw [rv_eq, cval]
  have : Int.castRingHom ℂ = (Complex.ofRealHom).comp (Int.castRingHom ℝ) := RingHom.ext_int _ _
  rw [this, ← Polynomial.map_map, Polynomial.eval_map, ← Complex.ofRealHom_eq_coe, Polynomial.eval₂_at_apply]
  rfl

theorem OpPolyExact.ok {op : ℂ → ℂ → ℂ} {op' : ℝ → ℝ → ℝ} (hop : ∀ x y : ℝ, op x y = (op' x y : ℂ)) {f : List Int → List Int → Option (List Int)}
    (h : OpPolyExact op f) : OpPolyOk op' f := by
  intro p q hp hq
  obtain ⟨r, r1, r2, r3, r4⟩ := h p q (rv_ne_zero.1 hp) (rv_ne_zero.1 hq)
  refine ⟨r, r1, rv_ne_zero.2 r2.ne_zero, fun x y hx hy => ?_⟩
  have := (r4 (op x y)).2 ⟨x, y, by rw [cval_ofReal, hx]; simp, by rw [cval_ofReal, hy]; simp, rfl⟩
  rw [hop, cval_ofReal] at this
  exact_mod_cast this

theorem shifted_wf (H : HashOrder) (x z : ℕ) (q : List Int) : ∀ c ∈ shiftedPoly H x z q, c.WF := by
  intro c hc
  exact (intOps_models.toSemi.mpExpand_coeffs x (evaluate_val H _ _ (constPoly_wf q)).1.mono c hc).1

theorem shifted_val (H : HashOrder) {x z : ℕ} (hxz : x ≠ z) (q : List Int) :
    polyVal ival (shiftedPoly H x z q) = (shiftVar (ipoly q)).map (inVar z) := by
  obtain ⟨w1, w2⟩ := evaluate_val H ((intMulti H).add (intOps.mpVar z) ((intMulti H).neg (intOps.mpVar x))) _ (constPoly_wf q)
  refine expand_unique w1 x _ (fun n => ?_) ?_
  · rw [Polynomial.coeff_map]; exact inVar_supported z (by simpa using Ne.symm hxz) _
  · rw [w2, constPoly_val z, shiftVar, Polynomial.map_comp, Polynomial.eval_comp]
    congr 1
    rw [show ival ((intMulti H).add (intOps.mpVar z) ((intMulti H).neg (intOps.mpVar x))) = ival (intOps.mpVar z) + - ival (intOps.mpVar x) by
      change mpVal id (intOps.mpAdd _ _) = _
      rw [intOps_models.toSemi.mpAdd_val]
      congr 1
      exact intOps_models.toRing.mpNeg_val H _, var_val, var_val]
    simp [inVar_X, sub_eq_add_neg]

/-- `root_sum_poly` has the sums of the roots as roots. -/
theorem rootSumPoly_exact (H : HashOrder) {x z : ℕ} (hxz : x ≠ z) : OpPolyExact (· + ·) (rootSumPoly H x z) := by
  intro p q hp hq
  obtain ⟨n1, n2⟩ := sum_resultant_ne_zero hp hq
  refine opPoly_common H z (constPoly_wf p) (shifted_wf H x z q) (constPoly_val z p) (shifted_val H hxz q)
    ((Polynomial.map_ne_zero_iff Polynomial.C_injective).2 hp) (shiftVar_ne_zero hq) n1 n2 _ (fun w hw => ?_) ?_
  · push Not at hw
    exact sum_resultant_at w fun y y' hy hy' => hw y y' hy hy'
  · rintro w ⟨a, b, ha, hb, rfl⟩
    refine ⟨natDegree_ne_of_root hp ha, a, ?_, ?_⟩
    · rw [map_atPoint_C]; exact ha
    · rw [shiftVar_map, Polynomial.eval_comp]; simpa using hb

/-! ## Products -/

/-- Multiplying each monomial by a power of `t` that makes its degree `d`. -/
noncomputable def homMap (t d : ℕ) : MvPolynomial ℕ ℤ →ₗ[ℤ] MvPolynomial ℕ ℤ :=
  (MvPolynomial.basisMonomials ℕ ℤ).constr ℤ fun s => MvPolynomial.monomial (s + Finsupp.single t (d - s.degree)) 1

theorem homMap_monomial (t d : ℕ) (s : ℕ →₀ ℕ) (c : ℤ) :
    homMap t d (MvPolynomial.monomial s c) = MvPolynomial.monomial (s + Finsupp.single t (d - s.degree)) c := by
  have h1 : MvPolynomial.monomial s c = c • (MvPolynomial.basisMonomials ℕ ℤ) s := by
    rw [MvPolynomial.coe_basisMonomials, MvPolynomial.smul_monomial, smul_eq_mul, mul_one]
  rw [h1, map_smul, homMap, Module.Basis.constr_basis, MvPolynomial.smul_monomial, smul_eq_mul, mul_one]

theorem homTerms_val (p : MPoly Int) (d t : ℕ) : ival (homTerms p d t) = homMap t d (ival p) := by
  induction p with
  | nil => simp [homTerms, mpVal_nil, ival]
  | cons a p ih =>
    rw [homTerms] at ih ⊢
    rw [List.map_cons, ival, mpVal_cons, mpVal_cons, map_add, homMap_monomial]
    rw [show mpVal id _ = _ from ih]
    congr 2
    rw [monoVal_new, monoVal_append, Mono.degree_eq]
    simp [monoVal]

theorem inVar_eq_sum (x : ℕ) (q : Polynomial ℤ) :
    inVar x q = ∑ i ∈ Finset.range (q.natDegree + 1), MvPolynomial.monomial (Finsupp.single x i) (q.coeff i) := by
  rw [inVar, Polynomial.coe_eval₂RingHom, Polynomial.eval₂_eq_sum_range]
  refine Finset.sum_congr rfl fun i _ => ?_
  rw [MvPolynomial.X_pow_eq_monomial, MvPolynomial.C_mul_monomial, mul_one]

theorem inVar_totalDegree (x : ℕ) {q : Polynomial ℤ} (hq : q ≠ 0) : (inVar x q).totalDegree = q.natDegree := by
  apply le_antisymm
  · rw [inVar_eq_sum]
    refine MvPolynomial.totalDegree_finsetSum_le fun i hi => ?_
    refine (MvPolynomial.totalDegree_monomial_le _ _).trans ?_
    rw [Finset.mem_range] at hi
    simp [Finsupp.sum_single_index]
    omega
  · have : Finsupp.single x q.natDegree ∈ (inVar x q).support := by
      rw [MvPolynomial.mem_support_iff, inVar_eq_sum, MvPolynomial.coeff_sum, Finset.sum_eq_single q.natDegree]
      · rw [MvPolynomial.coeff_monomial, if_pos rfl]; exact Polynomial.leadingCoeff_ne_zero.2 hq
      · intro i _ hi
        rw [MvPolynomial.coeff_monomial, if_neg]
        intro e
        exact hi (Finsupp.single_injective x e)
      · intro h; exact absurd (Finset.mem_range.2 (Nat.lt_succ_self _)) h
    have := MvPolynomial.le_totalDegree this
    simpa [Finsupp.sum_single_index] using this

theorem homMap_inVar (x t : ℕ) (q : Polynomial ℤ) :
    homMap t q.natDegree (inVar x q) = ((twistVar q).map (inVar x)).eval (MvPolynomial.X t) := by
  rw [inVar_eq_sum, map_sum, twistVar, Polynomial.map_sum, Polynomial.eval_finset_sum]
  refine Finset.sum_congr rfl fun i _ => ?_
  rw [homMap_monomial, Polynomial.map_monomial, Polynomial.eval_monomial, map_mul, map_pow, inVar_C, inVar_X,
    MvPolynomial.X_pow_eq_monomial, MvPolynomial.X_pow_eq_monomial, MvPolynomial.C_mul_monomial, MvPolynomial.monomial_mul]
  simp

theorem twisted_spec (H : HashOrder) {x t : ℕ} (hxt : x ≠ t) {q : List Int} (hq : ipoly q ≠ 0) :
    ∃ L, twistedPoly H x t q = some L ∧ (∀ c ∈ L, c.WF) ∧ polyVal ival L = (twistVar (ipoly q)).map (inVar x) := by
  obtain ⟨w1, w2, w3⟩ := mpPolyEvaluate_spec intDom H x _ (constPoly_wf q)
  have w3' : ival ((intOps.toSemiRingOps.multi H).polyEvaluate (q.map MPoly.constant) (intOps.mpVar x)) = inVar x (ipoly q) := by
    rw [ival, w3, show polyVal (mpVal (id : Int → Int)) _ = _ from constPoly_val x q, Polynomial.map_map, inVar, Polynomial.coe_eval₂RingHom,
      Polynomial.eval₂_eq_eval_map]
    congr 2
    exact RingHom.ext_int _ _
  have hne : inVar x (ipoly q) ≠ 0 := (map_ne_zero_iff _ (inVar_injective x)).2 hq
  have hfree : t ∉ ((intOps.toSemiRingOps.multi H).polyEvaluate (q.map MPoly.constant) (intOps.mpVar x)).freeVars := by
    rw [mem_freeVars (id : Int → Int) w1 w2, show mpVal (id : Int → Int) _ = _ from w3']
    intro ht
    have := MvPolynomial.mem_supported.1 (inVar_supported x (W := {x}) rfl (ipoly q)) ht
    exact hxt this.symm
  obtain ⟨d, d1, d2⟩ := intOps_models.toSemi.mpHomogenize_eq w1 hfree (by rw [show mpVal (id : Int → Int) _ = _ from w3']; exact hne)
  have hd : d = (ipoly q).natDegree := by
    rw [← inVar_totalDegree x hq, ← w3']
    exact (MPoly.degree_eq (id : Int → Int) w1 w2 d1).symm
  subst hd
  have hwf : (MPoly.new (homTerms ((intOps.toSemiRingOps.multi H).polyEvaluate (q.map MPoly.constant) (intOps.mpVar x))
      (ipoly q).natDegree t)).WF := MPoly.wf_perm (MPoly.new_perm _) (homTerms_wf w1 hfree _)
  refine ⟨_, by
    rw [twistedPoly]
    rw [show intOps.mpHomogenize ((intMulti H).polyEvaluate (q.map MPoly.constant) (intOps.mpVar x)) t = _ from d2]; rfl, ?_, ?_⟩
  · intro c hc
    exact (intOps_models.toSemi.mpExpand_coeffs t hwf.mono c hc).1
  · refine expand_unique hwf t _ (fun n => ?_) ?_
    · rw [Polynomial.coeff_map]; exact inVar_supported x (by simpa using hxt) _
    · rw [ival, mpVal_new, show mpVal (id : Int → Int) (homTerms _ _ _) = _ from homTerms_val _ _ _, w3', homMap_inVar]

/-- `root_product_poly` has the products of the roots as roots. -/
theorem rootProductPoly_exact (H : HashOrder) {x t : ℕ} (hxt : x ≠ t) : OpPolyExact (· * ·) (rootProductPoly H x t) := by
  intro p q hp hq
  obtain ⟨n1, n2⟩ := prod_resultant_ne_zero hp hq
  obtain ⟨L, l1, l2, l3⟩ := twisted_spec H hxt hq
  have hr : rootProductPoly H x t p q = resultantIn H x (p.map MPoly.constant) L := by rw [rootProductPoly, l1]; rfl
  rw [hr]
  refine opPoly_common H x (constPoly_wf p) l2 (constPoly_val x p) l3
    ((Polynomial.map_ne_zero_iff Polynomial.C_injective).2 hp) (twistVar_ne_zero hq) n1 n2 _ (fun w hw => ?_) ?_
  · push Not at hw
    exact prod_resultant_at hp hq w fun y y' hy hy' => hw y y' hy hy'
  · rintro w ⟨a, b, ha, hb, rfl⟩
    refine ⟨natDegree_ne_of_root hp ha, a, ?_, ?_⟩
    · rw [map_atPoint_C]; exact ha
    · rw [twistVar_eval_mul, hb, mul_zero]

theorem rootSumPoly_ok (H : HashOrder) {x z : ℕ} (hxz : x ≠ z) : OpPolyOk (· + ·) (rootSumPoly H x z) :=
  (rootSumPoly_exact H hxz).ok fun _ _ => by push_cast; rfl

theorem rootProductPoly_ok (H : HashOrder) {x t : ℕ} (hxt : x ≠ t) : OpPolyOk (· * ·) (rootProductPoly H x t) :=
  (rootProductPoly_exact H hxt).ok fun _ _ => by push_cast; rfl

end Verif.RealRoots
