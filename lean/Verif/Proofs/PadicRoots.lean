import Verif.Proofs.PadicRefine
import Verif.Proofs.RealAlgAll

/-!
# Truncation, equality and the list of all p-adic roots of a polynomial
-/

namespace Verif.Padic

open Polynomial Verif.Rings Verif.RealRoots

section
variable {p : ℕ} [hp : Fact p.Prime]

theorem Trunc.Of.congr {t : Trunc} {q q' : ℚ_[p]} {c : ℤ} (h : t.Of p q c) (hq : ‖q' - q‖ ≤ (p : ℝ) ^ (-c)) : t.Of p q' c := by
  cases t with
  | zero =>
    have : q' = (q' - q) + q := by ring
    change ‖q'‖ ≤ _
    rw [this]; exact add_le hq h
  | nonZero a s n =>
    obtain ⟨h1, h2, h3, h4, h5⟩ := h
    refine ⟨h1, h2, h3, h4, ?_⟩
    have : q' - (a : ℚ_[p]) * (p : ℚ_[p]) ^ s = (q' - q) + (q - (a : ℚ_[p]) * (p : ℚ_[p]) ^ s) := by ring
    rw [this]; exact add_le hq h5

theorem digitsLoop_spec : ∀ (n v : ℕ), v < p ^ n → (digitsLoop p n v).length = n ∧ (∀ d ∈ digitsLoop p n v, d < p) ∧ Nat.ofDigits p (digitsLoop p n v) = v
  | 0, v, h => by
    have : v = 0 := by simpa using h
    subst this; simp [digitsLoop]
  | n + 1, v, h => by
    obtain ⟨h1, h2, h3⟩ := digitsLoop_spec n (v / p) (Nat.div_lt_of_lt_mul (by rwa [pow_succ, mul_comm] at h))
    refine ⟨by simp [digitsLoop, h1], ?_, ?_⟩
    · intro d hd
      rcases List.mem_cons.1 hd with rfl | hd
      · exact Nat.mod_lt _ hp.out.pos
      · exact h2 d hd
    · rw [digitsLoop, Nat.ofDigits_cons, h3]
      exact Nat.mod_add_div v p

/-- the digits of a truncation -/
theorem Trunc.Of.digits {t : Trunc} {q : ℚ_[p]} {c : ℤ} (h : t.Of p q c) :
    (t.digits p = none ∧ ‖q‖ ≤ (p : ℝ) ^ (-c)) ∨ ∃ ds s, t.digits p = some (ds, s) ∧ DigitsOf p ds s q c := by
  cases t with
  | zero => exact Or.inl ⟨rfl, h⟩
  | nonZero a s n =>
    obtain ⟨h1, h2, h3, h4, h5⟩ := h
    obtain ⟨d1, d2, d3⟩ := digitsLoop_spec (p := p) n a h4
    refine Or.inr ⟨_, s, rfl, d2, ?_, by rw [d1]; omega, by rw [d3]; exact h5⟩
    obtain ⟨m, rfl⟩ : ∃ m, n = m + 1 := ⟨n - 1, by omega⟩
    exact ⟨a % p, rfl, fun e => h3 (Nat.dvd_of_mod_eq_zero e)⟩

theorem PRoot.truncate_spec {fac : Fac} (hfac : FacOk fac) (dbg : Bool) (n : ℤ) {x : ℚ_[p]} (r : PRoot) (h : r.Is x)
    (hdbg : dbg = true → ‖(derivative (pv p r.poly)).eval x‖ ≤ 1) :
    ∃ t s, r.truncate dbg fac p n = some (t, s) ∧ t.Of p x n ∧ s.poly = r.poly ∧ s.Is x ∧ s.approx.v = max r.approx.v n := by
  obtain ⟨s, h1, h2, h3, h4⟩ := PRoot.refine_spec hfac dbg n _ r rfl h hdbg
  obtain ⟨t, t1, t2⟩ := ratTruncate_spec (p := p) s.approx.a n
  refine ⟨t, s, by rw [PRoot.truncate, h1, Option.bind_eq_bind, Option.bind_some, t1]; rfl, t2.congr ?_, h2, h3, h4⟩
  refine (show ‖x - (s.approx.a : ℚ_[p])‖ ≤ (p : ℝ) ^ (-s.approx.v) from h3.isolates.mem).trans ?_
  exact zpow_le_zpow_right₀ p_one.le (by omega)

theorem rationalValue_inj {t u : Trunc} {q q' : ℚ_[p]} {c : ℤ} (h : t.Of p q c) (h' : u.Of p q' c) (e : t.rationalValue p = u.rationalValue p) : t = u := by
  refine Trunc.Of.unique h h' ?_
  have h1 := h.close
  have h2 := h'.close
  rw [← e] at h2
  have : q - q' = (q - (t.rationalValue p : ℚ_[p])) - (q' - (t.rationalValue p : ℚ_[p])) := by ring
  rw [this]; exact sub_le h1 h2

/-- associated polynomials with positive leading coefficients are equal -/
theorem eq_of_common_root {f g : List Int} (hf : PolyReduced (id : Int → Int) f) (hg : PolyReduced (id : Int → Int) g)
    (hif : Irreducible (polyVal (id : Int → Int) f)) (hig : Irreducible (polyVal (id : Int → Int) g))
    (hdf : 2 ≤ (polyVal (id : Int → Int) f).natDegree) (hdg : 2 ≤ (polyVal (id : Int → Int) g).natDegree)
    {x : ℚ_[p]} (hx : (pv p f).eval x = 0) (hy : (pv p g).eval x = 0) :
    Associated (polyVal (id : Int → Int) f) (polyVal (id : Int → Int) g) := by
  have hpf := hif.isPrimitive (by omega)
  have hpg := hig.isPrimitive (by omega)
  have hqf := (IsPrimitive.Int.irreducible_iff_irreducible_map_cast hpf).1 hif
  have hqg := (IsPrimitive.Int.irreducible_iff_irreducible_map_cast hpg).1 hig
  have key : ∀ h : List Int, (pv p h).eval x = 0 → aeval x ((polyVal (id : Int → Int) h).map (Int.castRingHom ℚ)) = 0 := by
    intro h e
    have : (Int.castRingHom ℚ) = algebraMap ℤ ℚ := rfl
    rw [this, aeval_map_algebraMap, aeval_def, eval₂_eq_eval_map]
    exact e
  have h1 := minpoly.dvd ℚ x (key f hx)
  have h2 := minpoly.dvd ℚ x (key g hy)
  have hint : IsIntegral ℚ x := by
    rw [← isAlgebraic_iff_isIntegral]
    exact ⟨_, hqf.ne_zero, key f hx⟩
  have hm := minpoly.irreducible hint
  have ha : Associated ((polyVal (id : Int → Int) f).map (Int.castRingHom ℚ)) ((polyVal (id : Int → Int) g).map (Int.castRingHom ℚ)) :=
    ((hm.dvd_irreducible_iff_associated hqf).1 h1).symm.trans ((hm.dvd_irreducible_iff_associated hqg).1 h2)
  exact associated_of_dvd_dvd ((IsPrimitive.Int.dvd_iff_map_cast_dvd_map_cast _ _ hpf).2 ha.dvd)
    ((IsPrimitive.Int.dvd_iff_map_cast_dvd_map_cast _ _ hpg).2 ha.dvd')

theorem eq_of_associated {F G : ℤ[X]} (h : Associated F G) (h1 : 0 < F.leadingCoeff) (h2 : 0 < G.leadingCoeff) : F = G := by
  obtain ⟨u, hu⟩ := h
  obtain ⟨c, hc, e⟩ := Polynomial.isUnit_iff.1 u.isUnit
  rw [← e] at hu
  rcases Int.isUnit_iff.1 hc with rfl | rfl
  · rw [← hu]; simp
  · rw [← hu, leadingCoeff_mul, leadingCoeff_C] at h2
    omega

/-- equality of roots with the same sign of the leading coefficient -/
theorem PRoot.equal_spec {fac : Fac} (hfac : FacOk fac) (dbg : Bool) {x y : ℚ_[p]} (r s : PRoot) (h : r.Is x) (h' : s.Is y)
    (hdbg : dbg = true → ‖(derivative (pv p r.poly)).eval x‖ ≤ 1 ∧ ‖(derivative (pv p s.poly)).eval y‖ ≤ 1) :
    ∃ b, r.equal dbg fac p s = some b ∧ (b = true ↔ polyVal (id : Int → Int) r.poly = polyVal (id : Int → Int) s.poly ∧ x = y) := by
  rw [PRoot.equal]
  by_cases hpoly : intPoly.equal r.poly s.poly = true
  · have hpe : polyVal (id : Int → Int) r.poly = polyVal (id : Int → Int) s.poly := (intPoly_models.toSemi.equal _ _).1 hpoly
    rw [if_neg (by rw [hpoly]; simp)]
    set n := if s.approx.v < r.approx.v then s.approx.v else r.approx.v with hn
    obtain ⟨t, r', t1, t2, -⟩ := PRoot.truncate_spec hfac dbg n r h (fun e => (hdbg e).1)
    obtain ⟨u, s', u1, u2, -⟩ := PRoot.truncate_spec hfac dbg n s h' (fun e => (hdbg e).2)
    refine ⟨t.rationalValue p == u.rationalValue p, by simp only [t1, u1, Option.bind_eq_bind, Option.bind_some], ?_⟩
    rw [beq_iff_eq]
    have hpv : pv p r.poly = pv p s.poly := by rw [pv, hpe]
    constructor
    · intro e
      refine ⟨hpe, ?_⟩
      have hxy : ‖x - y‖ ≤ (p : ℝ) ^ (-n) := by
        have h1 := t2.close
        have h2 := u2.close
        rw [← e] at h2
        have : x - y = (x - (t.rationalValue p : ℚ_[p])) - (y - (t.rationalValue p : ℚ_[p])) := by ring
        rw [this]; exact sub_le h1 h2
      have hr : ‖x - (r.approx.a : ℚ_[p])‖ ≤ (p : ℝ) ^ (-r.approx.v) := h.isolates.mem
      have hs : ‖y - (s.approx.a : ℚ_[p])‖ ≤ (p : ℝ) ^ (-s.approx.v) := h'.isolates.mem
      by_cases hlt : s.approx.v < r.approx.v
      · rw [if_pos hlt] at hn
        rw [hn] at hxy
        refine h'.isolates.unique x (by rw [← hpv]; exact h.isolates.root) ?_
        rw [Ball.Contains, show x - (s.approx.a : ℚ_[p]) = (x - y) + (y - s.approx.a) by ring]
        exact add_le hxy hs
      · rw [if_neg hlt] at hn
        rw [hn] at hxy
        refine (h.isolates.unique y (by rw [hpv]; exact h'.isolates.root) ?_).symm
        rw [Ball.Contains, show y - (r.approx.a : ℚ_[p]) = (x - r.approx.a) - (x - y) by ring]
        exact sub_le hr hxy
    · rintro ⟨-, rfl⟩
      rw [Trunc.Of.unique t2 u2 (by rw [sub_self, norm_zero]; exact (zpow_pos p_pos _).le)]
  · rw [if_pos (by simpa using hpoly)]
    refine ⟨false, rfl, ?_⟩
    simp only [Bool.false_eq_true, false_iff, not_and]
    intro e
    exact absurd ((intPoly_models.toSemi.equal _ _).2 e) hpoly

theorem padic_repeat (m : List ℚ_[p]) (k : Nat) : ((m.flatMap fun r => List.replicate k r : List ℚ_[p]) : Multiset ℚ_[p]) = k • (m : Multiset ℚ_[p]) := by
  induction m with
  | nil => simp
  | cons x m ih =>
    rw [List.flatMap_cons, ← Multiset.coe_add, ih, ← Multiset.cons_coe, ← Multiset.singleton_add, nsmul_add, Multiset.nsmul_singleton]
    rfl

theorem pv_nodup {f : List Int} (hirr : Irreducible (polyVal (id : Int → Int) f)) (hd : 1 ≤ (polyVal (id : Int → Int) f).natDegree) :
    (pv p f).roots.Nodup := by
  have h1 : (polyVal (id : Int → Int) f).IsPrimitive := hirr.isPrimitive (by omega)
  have h2 := ((IsPrimitive.Int.irreducible_iff_irreducible_map_cast h1).1 hirr).separable
  have h3 := h2.map (f := Rat.castHom ℚ_[p])
  rw [Polynomial.map_map, RingHom.ext_int ((Rat.castHom ℚ_[p]).comp (Int.castRingHom ℚ)) (Int.castRingHom ℚ_[p])] at h3
  exact nodup_roots h3

theorem rootsIrreducible_spec {fac : Fac} (hfac : FacOk fac) {f : List Int} (hok : FactorOk f) (hd : 1 ≤ (polyVal (id : Int → Int) f).natDegree) :
    ∃ (l : List PAlg) (xs : List ℚ_[p]), rootsIrreducible fac p f = some l ∧ List.Forall₂ PAlg.Is l xs ∧ (xs : Multiset ℚ_[p]) = (pv p f).roots ∧
      ∀ r, .root r ∈ l → r.poly = f := by
  have hirr := hok.irreducible
  have h0 := hirr.ne_zero
  have hdeg := intGcd_models.toSemi.polyDegree_some f h0
  rw [rootsIrreducible, isIrreducible_ok hfac hirr, hdeg]
  simp only [assertThat, if_true, Option.bind_eq_bind, Option.bind_some]
  by_cases h1 : (polyVal (id : Int → Int) f).natDegree = 1
  · rw [if_pos h1]
    have hc : (polyVal (id : Int → Int) f).coeff 1 ≠ 0 := by rw [← h1, coeff_natDegree]; exact leadingCoeff_ne_zero.2 h0
    have hb : (intGcd.polyCoeff f 1 != 0) = true := by rw [coeff_eq]; simpa using hc
    rw [hb]
    refine ⟨_, _, rfl, List.Forall₂.cons rfl .nil, ?_, by simp⟩
    have hpc : (pv p f).coeff 1 ≠ 0 := by rw [pv_coeff]; exact_mod_cast hc
    have e : pv p f = C ((pv p f).coeff 1) * X + C ((pv p f).coeff 0) := eq_X_add_C_of_natDegree_le_one (by rw [pv_natDegree]; omega)
    rw [e, roots_C_mul_X_add_C _ hpc, Multiset.coe_singleton, coeff_eq, coeff_eq, pv_coeff, pv_coeff]
    congr 1
    push_cast
    rw [div_eq_inv_mul]
  · rw [if_neg h1]
    obtain ⟨bs, hbs, xs, b1, b2, b3⟩ := isolate_spec (p := p) hfac f hirr (by omega)
    rw [hbs]
    refine ⟨_, xs, rfl, ?_, ?_, ?_⟩
    · rw [List.forall₂_map_left_iff]
      exact b1.imp fun b x hb => ⟨hok.reduced, hirr, by change 2 ≤ (polyVal (id : Int → Int) f).natDegree; omega, hb.1, hb.2⟩
    · rw [Multiset.Nodup.ext (Multiset.coe_nodup.2 b2) (pv_nodup hirr (by omega))]
      intro x
      rw [mem_roots (pv_ne_zero h0), Multiset.mem_coe, b3]; rfl
    · intro r hr
      obtain ⟨b, -, e⟩ := List.mem_map.1 hr
      cases e; rfl

theorem factorRoots_spec {fac : Fac} (hf : FacOk fac) {fk : List Int × Nat} (hok : FactorOk fk.1) (hd : 1 ≤ (polyVal (id : Int → Int) fk.1).natDegree) :
    ∃ (l : List PAlg) (xs : List ℚ_[p]), Padic.factorRoots fac p fk = some l ∧ List.Forall₂ PAlg.Is l xs ∧ (xs : Multiset ℚ_[p]) = (pv p fk.1 ^ fk.2).roots ∧
      ∀ r, .root r ∈ l → 0 < (polyVal (id : Int → Int) r.poly).leadingCoeff := by
  obtain ⟨l, rs, e, h1, h2, h3⟩ := rootsIrreducible_spec (p := p) hf hok hd
  refine ⟨_, _, by rw [Padic.factorRoots, e, Option.map_some], forall₂_repeat h1 fk.2, ?_, ?_⟩
  · rw [padic_repeat, roots_pow, h2]
  · intro r hr
    obtain ⟨s, hs, hr⟩ := List.mem_flatMap.1 hr
    rw [← List.eq_of_mem_replicate hr] at hs
    rw [h3 r hs]; exact hok.positive

theorem padic_prod_roots {l : List (List Int × Nat)} (h : ∀ q ∈ l, pv p q.1 ≠ 0) : (l.map fun q => pv p q.1 ^ q.2).prod ≠ 0 := by
  intro e
  obtain ⟨q, q1, q2⟩ := List.mem_map.1 (List.prod_eq_zero_iff.1 e)
  exact pow_ne_zero _ (h q q1) q2

theorem mapM_padicRoots {fac : Fac} (hf : FacOk fac) (l : List (List Int × Nat)) (hl : ∀ q ∈ l, FactorOk q.1)
    (hd : ∀ q ∈ l, 1 ≤ (polyVal (id : Int → Int) q.1).natDegree) :
    ∃ (ls : List (List PAlg)) (rs : List ℚ_[p]), l.mapM (Padic.factorRoots fac p) = some ls ∧ List.Forall₂ PAlg.Is ls.flatten rs ∧
      (rs : Multiset ℚ_[p]) = ((l.map fun q => pv p q.1 ^ q.2).prod.roots) ∧
      ∀ r, .root r ∈ ls.flatten → 0 < (polyVal (id : Int → Int) r.poly).leadingCoeff := by
  induction l with
  | nil => exact ⟨[], [], rfl, .nil, by simp, by simp⟩
  | cons q l ih =>
    obtain ⟨ls, rs, e, e1, e2, e3⟩ := ih (fun z hz => hl z (by simp [hz])) (fun z hz => hd z (by simp [hz]))
    obtain ⟨m, ms, f, f1, f2, f3⟩ := factorRoots_spec (p := p) hf (hl q (by simp)) (hd q (by simp))
    refine ⟨m :: ls, ms ++ rs, by rw [List.mapM_cons, f, e]; rfl, ?_, ?_, ?_⟩
    · rw [List.flatten_cons]; exact List.rel_append f1 e1
    · have h0 : ∀ z ∈ q :: l, pv p z.1 ≠ 0 := fun z hz => pv_ne_zero (hl z hz).irreducible.ne_zero
      have := padic_prod_roots h0
      rw [List.map_cons, List.prod_cons] at this
      rw [← Multiset.coe_add, e2, f2, List.map_cons, List.prod_cons, roots_mul this]
    · intro r hr
      rw [List.flatten_cons, List.mem_append] at hr
      exact hr.elim (f3 r) (e3 r)

theorem pv_denote_roots {pf : Factored (List Int)} (hv : pf.Valid intPoly (polyVal (id : Int → Int))) {f : List Int}
    (ha : Associated (pf.denote (polyVal (id : Int → Int))) (polyVal (id : Int → Int) f)) : (pv p f).roots = (pf.factors.map fun q => pv p q.1 ^ q.2).prod.roots := by
  obtain ⟨u, hu⟩ := ha
  have hunit : ∀ v : ℤ[X], IsUnit v → ∃ c : ℚ_[p], c ≠ 0 ∧ v.map (Int.castRingHom ℚ_[p]) = C c := by
    intro v hv
    obtain ⟨c, hc, hcu⟩ := Polynomial.isUnit_iff.1 hv
    exact ⟨c, by rcases Int.isUnit_iff.1 hc with e | e <;> rw [e] <;> norm_num, by rw [← hcu, map_C]; rfl⟩
  obtain ⟨c, c0, hc⟩ := hunit _ u.isUnit
  obtain ⟨d, d0, hd⟩ := hunit _ hv.unit
  have : pv p f = C (c * d) * (pf.factors.map fun q => pv p q.1 ^ q.2).prod := by
    rw [pv, ← hu, Factored.denote]
    rw [Polynomial.map_mul, Polynomial.map_mul, hc, hd, Polynomial.map_list_prod, List.map_map, C_mul]
    have : (Polynomial.map (Int.castRingHom ℚ_[p]) ∘ fun q : List Int × Nat => polyVal (id : Int → Int) q.1 ^ q.2) = fun q => pv p q.1 ^ q.2 := by
      funext q
      rw [Function.comp_apply, Polynomial.map_pow]
    rw [this]; ring
  rw [this, roots_C_mul _ (mul_ne_zero c0 d0)]

/-- all roots of a primitive polynomial -/
theorem allPadicRoots_spec {fac : Fac} (hf : FacOk fac) {f : List Int} (hprim : (polyVal (id : Int → Int) f).IsPrimitive) :
    ∃ (l : List PAlg) (xs : List ℚ_[p]), allPadicRoots fac p f = some l ∧ List.Forall₂ PAlg.Is l xs ∧ (xs : Multiset ℚ_[p]) = (pv p f).roots ∧
      ∀ r, .root r ∈ l → 0 < (polyVal (id : Int → Int) r.poly).leadingCoeff := by
  have h0 := hprim.ne_zero
  obtain ⟨pf, e, hv, ha, hfac⟩ := hf.spec h0
  have hz : intGcd.toSemiRingOps.poly.isZero f = false := by
    rw [← Bool.not_eq_true, intGcd_models.toSemi.poly.isZero]; exact h0
  have hd : ∀ q ∈ pf.factors, 1 ≤ (polyVal (id : Int → Int) q.1).natDegree := by
    intro q hq
    by_contra hlt
    have hc := eq_C_of_natDegree_eq_zero (p := polyVal (id : Int → Int) q.1) (by omega)
    have h1 := (hfac q hq).2
    rw [show ipoly q.1 = polyVal (id : Int → Int) q.1 from rfl, hc] at h1
    have hu := hprim _ h1
    have := (hfac q hq).1.irreducible.not_isUnit
    rw [show ipoly q.1 = polyVal (id : Int → Int) q.1 from rfl, hc] at this
    exact this (isUnit_C.2 hu)
  obtain ⟨ls, rs, e1, e2, e3, e4⟩ := mapM_padicRoots (p := p) hf pf.factors (fun q hq => (hfac q hq).1) hd
  refine ⟨ls.flatten, rs, ?_, e2, by rw [pv_denote_roots hv ha, e3], e4⟩
  rw [allPadicRoots]
  simp only [hz, Bool.not_false, assertThat, if_true, e, Option.bind_eq_bind, Option.bind_some, e1]

theorem isUnit_primitive {F : ℤ[X]} (h : IsUnit F) : F.IsPrimitive := fun _ hr => isUnit_C.1 (isUnit_of_dvd_unit hr h)

/-- a polynomial that is not primitive makes `all_padic_roots` panic -/
theorem allPadicRoots_none {fac : Fac} (hf : FacOk fac) {f : List Int} (h0 : polyVal (id : Int → Int) f ≠ 0) (hprim : ¬ (polyVal (id : Int → Int) f).IsPrimitive) :
    allPadicRoots fac p f = none := by
  obtain ⟨pf, e, hv, ha, hfac⟩ := hf.spec h0
  have hz : intGcd.toSemiRingOps.poly.isZero f = false := by
    rw [← Bool.not_eq_true, intGcd_models.toSemi.poly.isZero]; exact h0
  cases hl : allPadicRoots fac p f with
  | none => rfl
  | some l =>
    exfalso
    rw [allPadicRoots] at hl
    simp only [hz, Bool.not_false, assertThat, if_true, e, Option.bind_eq_bind, Option.bind_some, Option.bind_eq_some_iff] at hl
    obtain ⟨ls, h1, -⟩ := hl
    apply hprim
    have hfp : ∀ q ∈ pf.factors, (polyVal (id : Int → Int) q.1).IsPrimitive := by
      intro q hq
      obtain ⟨m, -, hm⟩ := mapM_mem h1 hq
      have hirr := (hfac q hq).1.irreducible
      by_cases hd : (polyVal (id : Int → Int) q.1).natDegree = 0
      · exfalso
        rw [Padic.factorRoots, rootsIrreducible, isIrreducible_ok hf hirr, intGcd_models.toSemi.polyDegree_some q.1 hirr.ne_zero] at hm
        have hd' : (ipoly q.1).natDegree = 0 := hd
        simp only [hd', assertThat, if_true, Option.bind_eq_bind, Option.bind_some, zero_ne_one, if_false] at hm
        have : isolate fac p q.1 = none := by
          rw [isolate, intGcd_models.toSemi.polyDegree_some q.1 hirr.ne_zero]
          simp only [hd', assertThat, Option.bind_eq_bind, Option.bind_some]
          simp
        rw [this] at hm
        simp at hm
      · exact hirr.isPrimitive hd
    obtain ⟨u, hu⟩ := ha
    rw [← hu, Factored.denote]
    refine ((isUnit_primitive hv.unit).mul ?_).mul (isUnit_primitive u.isUnit)
    have : ∀ l : List (List Int × Nat), (∀ q ∈ l, (polyVal (id : Int → Int) q.1).IsPrimitive) →
        ((l.map fun q => polyVal (id : Int → Int) q.1 ^ q.2).prod).IsPrimitive := by
      intro l
      induction l with
      | nil => intro _; simpa using isPrimitive_one
      | cons q l ih =>
        intro h
        rw [List.map_cons, List.prod_cons]
        refine IsPrimitive.mul ?_ (ih fun q hq => h q (List.mem_cons_of_mem _ hq))
        have hq := h q List.mem_cons_self
        generalize q.2 = k
        induction k with
        | zero => rw [pow_zero]; exact isPrimitive_one
        | succ k ihk => rw [pow_succ]; exact ihk.mul hq
    exact this _ hfp

end

end Verif.Padic
