import Verif.Proofs.AnfFactorMain
import Verif.Proofs.YunAssoc
import Verif.Proofs.Factored
import Mathlib.RingTheory.Polynomial.UniqueFactorization

/-! `factor` of polynomials over a number field: Yun's algorithm with the factoring of the squarefree parts. -/

namespace Verif.Anf
open Verif.Rings Polynomial

local notation "qp" => polyVal (id : ℚ → ℚ)

section Mono
variable {α : Type} {S : UfdOps α} {pgcd : List α → List α → Option (List α)} {sq sq' : List α → Option (Factored (List α))}

theorem yunStep_mono (h : ∀ a r, sq a = some r → sq' a = some r) (st r : YunState α) (e : S.yunStep pgcd sq st = some r) : S.yunStep pgcd sq' st = some r := by
  unfold UfdOps.yunStep at e ⊢
  simp only [Option.bind_eq_bind] at e ⊢
  obtain ⟨a, a1, e⟩ := Option.bind_eq_some_iff.1 e
  obtain ⟨b, b1, e⟩ := Option.bind_eq_some_iff.1 e
  rw [a1, Option.bind_some, h a b b1, Option.bind_some]
  exact e

theorem yunLoop_mono (h : ∀ a r, sq a = some r → sq' a = some r) (st r : YunState α) (e : S.yunLoop pgcd sq st = some r) : S.yunLoop pgcd sq' st = some r := by
  refine UfdOps.yunLoop.partial_correctness S pgcd sq (motive := fun st r => S.yunLoop pgcd sq' st = some r) ?_ st r e
  intro rec ih st r e
  simp only [Option.bind_eq_bind] at e
  obtain ⟨n, n1, e⟩ := Option.bind_eq_some_iff.1 e
  rw [UfdOps.yunLoop, n1]
  simp only [Option.bind_eq_bind, Option.bind_some]
  split at e
  · rename_i hn
    obtain ⟨st', s1, e⟩ := Option.bind_eq_some_iff.1 e
    rw [if_pos hn, yunStep_mono h _ _ s1]
    exact ih _ _ e
  · rename_i hn
    rw [if_neg hn]
    exact e

theorem factorizeYun_mono (h : ∀ a r, sq a = some r → sq' a = some r) (f : List α) (r : Factored (List α)) (e : S.factorizeYun pgcd sq f = some r) :
    S.factorizeYun pgcd sq' f = some r := by
  unfold UfdOps.factorizeYun at e ⊢
  simp only [Option.bind_eq_bind] at e ⊢
  obtain ⟨_, a1, e⟩ := Option.bind_eq_some_iff.1 e
  obtain ⟨cp, a2, e⟩ := Option.bind_eq_some_iff.1 e
  obtain ⟨cf, a3, e⟩ := Option.bind_eq_some_iff.1 e
  obtain ⟨st, a4, e⟩ := Option.bind_eq_some_iff.1 e
  obtain ⟨st', a5, e⟩ := Option.bind_eq_some_iff.1 e
  rw [a1, Option.bind_some, a2, Option.bind_some, a3, Option.bind_some, a4, Option.bind_some, yunLoop_mono h _ _ a5, Option.bind_some]
  exact e

end Mono

section
variable {f : List ℚ} [hirr : Fact (Irreducible (qp f))]

theorem anfUfd_models : (anfUfd f).Models (el f) where
  toGcd := (anfOps_models (f := f)).fieldEuc.bezout.toGcd
  factor_zero a ha := by
    change some (if (anfOps f).isZero a then none else some (⟨a, []⟩ : Factored (List ℚ))) = _
    rw [((anfOps_models (f := f)).toRing.toSemi.isZero a).2 ha]
    rfl
  factor_ne a ha := by
    refine ⟨⟨a, []⟩, ?_, ⟨isUnit_iff_ne_zero.2 ha, by simp, by simp, by simp, by simp⟩, by simp [Factored.denote]⟩
    change some (if (anfOps f).isZero a then none else some (⟨a, []⟩ : Factored (List ℚ))) = _
    rw [((anfOps_models (f := f)).toRing.toSemi.isZero_false a).2 ha]
    rfl

theorem anf_primGcd : IsPrimGcd (el f) (anfOps f).polyBezout.gcd := by
  intro a b _
  obtain ⟨g, g1, g2, -⟩ := (anfOps_models (f := f)).polyEuc.bezout.toGcd.gcd a b
  exact ⟨g, g1, g2⟩

/-- a valid factorization has monic factors, and the other way round -/
theorem valid_iff (F : Factored (List (List ℚ))) : F.Valid (anfUfd f).toFavOps.poly (polyVal (el f)) ↔ FactorsOver f F := by
  constructor
  · intro h
    exact ⟨h.unit, fun g hg => anfOps_models.polyFav_monic (h.irreducible g hg).ne_zero (h.fav g hg), h.irreducible, h.pos, h.distinct⟩
  · intro h
    exact ⟨h.unit, h.irreducible, fun g hg => monic_fav anfOps_models (h.monic g hg), h.pos, h.distinct⟩

theorem exists_factored (a : (NumField f)[X]) (ha : a ≠ 0) (hs : Squarefree a) :
    ∃ F : Factored (List (List ℚ)), FactorsOver f F ∧ Associated (F.denote (polyVal (el f))) a := by
  classical
  have hsurj := (anf_poly_models (f := f)).surj
  choose rep hrep using hsurj
  let l := (UniqueFactorizationMonoid.normalizedFactors a).toList
  have hl : ∀ g ∈ l, Irreducible g ∧ g.Monic := by
    intro g hg
    rw [Multiset.mem_toList] at hg
    have h1 := UniqueFactorizationMonoid.irreducible_of_normalized_factor g hg
    refine ⟨h1, ?_⟩
    have h2 := UniqueFactorizationMonoid.normalize_normalized_factor g hg
    rw [← h2]
    exact Polynomial.monic_normalize h1.ne_zero
  have hmem : ∀ x ∈ (l.map fun g => (rep g, 1)), ∃ g ∈ l, polyVal (el f) x.1 = g ∧ x.2 = 1 := by
    intro x hx
    obtain ⟨g, hg, rfl⟩ := List.mem_map.1 hx
    exact ⟨g, hg, hrep g, rfl⟩
  have hmap : ((l.map fun g => (rep g, 1)).map fun g : List (List ℚ) × Nat => polyVal (el f) g.1) = l := by
    rw [List.map_map]
    conv_rhs => rw [← List.map_id l]
    exact List.map_congr_left fun g _ => hrep g
  refine ⟨⟨rep 1, l.map fun g => (rep g, 1)⟩, ⟨?_, ?_, ?_, ?_, ?_⟩, ?_⟩
  · rw [hrep]; exact isUnit_one
  · intro x hx
    obtain ⟨g, hg, e, -⟩ := hmem x hx
    rw [e]; exact (hl g hg).2
  · intro x hx
    obtain ⟨g, hg, e, -⟩ := hmem x hx
    rw [e]; exact (hl g hg).1
  · intro x hx
    obtain ⟨g, hg, -, e⟩ := hmem x hx
    rw [e]; exact Nat.one_pos
  · rw [hmap]
    have := (UniqueFactorizationMonoid.squarefree_iff_nodup_normalizedFactors ha).1 hs
    rw [← Multiset.coe_toList (UniqueFactorizationMonoid.normalizedFactors a), Multiset.coe_nodup] at this
    exact this
  · have h1 : Factored.denote (polyVal (el f)) ⟨rep 1, l.map fun g => (rep g, 1)⟩ = l.prod := by
      unfold Factored.denote
      rw [hrep, one_mul]
      conv_rhs => rw [← hmap]
      congr 1
      exact List.map_congr_left fun x hx => by
        obtain ⟨g, hg, -, e⟩ := hmem x hx
        rw [e, pow_one]
    rw [h1, Multiset.prod_toList]
    exact UniqueFactorizationMonoid.prod_normalizedFactors ha

theorem rationalLoop_spec {N : Nat} {ratFactor : List ℚ → Option (Option (Factored (List ℚ)))} (hrf : RatFactorOk N ratFactor)
    (rng : Nat → Nat → Nat → Nat → Nat → ℚ) (l : List (List ℚ × Nat)) (hl : ∀ g ∈ l, (qp f).natDegree * (qp g.1).natDegree < N)
    (st F : Factored (List (List ℚ))) (hst : st.Valid (anfUfd f).toFavOps.poly (polyVal (el f)))
    (e : l.foldlM (rationalLoop f (reducedRing ratFactor f rng)) st = some F) :
    F.Valid (anfUfd f).toFavOps.poly (polyVal (el f)) ∧
      Associated (F.denote (polyVal (el f))) (st.denote (polyVal (el f)) * (l.map fun g => (qp g.1).map (algebraMap ℚ (NumField f))).prod) := by
  induction l generalizing st with
  | nil =>
    cases e
    simpa using hst
  | cons g l ih =>
    rw [List.foldlM_cons] at e
    simp only [Option.bind_eq_bind] at e
    obtain ⟨st', s1, e⟩ := Option.bind_eq_some_iff.1 e
    unfold rationalLoop at s1
    simp only [Option.bind_eq_bind] at s1
    obtain ⟨h, h1, s1⟩ := Option.bind_eq_some_iff.1 s1
    obtain ⟨-, t1, t2, -⟩ := reducedRing_spec hrf rng _ (by
      rw [polyVal_consts, natDegree_map]
      exact hl g List.mem_cons_self) h h1
    have t3 := (valid_iff h).2 t1
    obtain ⟨c, c1, c2, c3⟩ := Factored.mul_spec (anfUfd_models (f := f)).toGcd.toFav.poly st h hst.fav t3.fav
    rw [c1] at s1
    obtain rfl := Option.some.inj s1
    obtain ⟨k1, k2⟩ := ih (fun y hy => hl y (List.mem_cons_of_mem _ hy)) _ (c3 hst t3) e
    refine ⟨k1, k2.trans ?_⟩
    rw [c2, List.map_cons, List.prod_cons, ← mul_assoc, ← polyVal_consts]
    exact Associated.mul_mul (Associated.mul_mul (Associated.refl _) t2) (Associated.refl _)

theorem rationalFirst_spec {N : Nat} {ratFactor : List ℚ → Option (Option (Factored (List ℚ)))} (hrf : RatFactorOk N ratFactor)
    (rng : Nat → Nat → Nat → Nat → Nat → ℚ) (p : List (List ℚ)) (hN : (qp f).natDegree * (polyVal (el f) p).natDegree < N)
    (hs : Squarefree (polyVal (el f) p)) (F : Factored (List (List ℚ)))
    (e : rationalFirst ratFactor f (reducedRing ratFactor f rng) p = some F) :
    FactorsOver f F ∧ Associated (F.denote (polyVal (el f))) (polyVal (el f) p) := by
  unfold rationalFirst at e
  simp only [Option.bind_eq_bind] at e
  obtain ⟨_, -, e⟩ := Option.bind_eq_some_iff.1 e
  split at e
  · obtain ⟨-, s1, s2, -⟩ := reducedRing_spec hrf rng p hN F e
    exact ⟨s1, s2⟩
  · rename_i cs hcs
    obtain ⟨r, r1, e⟩ := Option.bind_eq_some_iff.1 e
    have hP : polyVal (el f) p = (qp cs).map (algebraMap ℚ (NumField f)) :=
      rat_coeffs (fun c x hc => el_of_rat c x (asConstant_sound c x hc)) hcs
    have hk := irr_pos f
    have hc0 : qp cs ≠ 0 := fun h0 => hs.ne_zero (by rw [hP, h0, Polynomial.map_zero])
    have hdeg : (qp f).natDegree * (qp cs).natDegree < N := by
      rw [hP, natDegree_map] at hN
      exact hN
    obtain ⟨r', c1, c2⟩ := Option.bind_eq_some_iff.1 r1
    obtain ⟨r'', rfl, c3, c4⟩ := hrf cs r' hc0 (lt_of_le_of_lt (Nat.le_mul_of_pos_left _ hk) hdeg) c1
    cases c2
    have hsq : Squarefree (qp cs) := by
      intro d hd
      have h1 := hs (d.map (algebraMap ℚ (NumField f))) (by rw [hP, ← Polynomial.map_mul]; exact Polynomial.map_dvd _ hd)
      have h2 := natDegree_eq_zero_of_isUnit h1
      rw [natDegree_map] at h2
      have hd0 : d ≠ 0 := by
        rintro rfl
        rw [zero_mul, zero_dvd_iff] at hd
        exact hc0 hd
      rw [Polynomial.isUnit_iff_degree_eq_zero, degree_eq_natDegree hd0, h2]
      rfl
    have hpd : ∀ g ∈ r.factors, qp g.1 ^ g.2 ∣ qp cs := fun g hg =>
      ((List.dvd_prod (List.mem_map_of_mem (f := fun p : List ℚ × Nat => qp p.1 ^ p.2) hg)).trans (Dvd.intro_left _ rfl)).trans c4.dvd
    have hone : ∀ g ∈ r.factors, g.2 = 1 := by
      intro g hg
      by_contra hne
      have h1 := c3.pos g hg
      have h2 : qp g.1 * qp g.1 ∣ qp cs := by
        rw [← pow_two]
        exact (pow_dvd_pow _ (by omega)).trans (hpd g hg)
      exact (c3.irreducible g hg).not_isUnit (hsq _ h2)
    have hu : (Factored.factoredUnit (polyConst r.unit)).Valid (anfUfd f).toFavOps.poly (polyVal (el f)) :=
      ⟨by
        change IsUnit (polyVal (el f) (polyConst r.unit))
        rw [el_unit _ c3.unit]
        exact c3.unit.map (mapRingHom (algebraMap ℚ (NumField f))), by simp [Factored.factoredUnit], by simp [Factored.factoredUnit],
        by simp [Factored.factoredUnit], by simp [Factored.factoredUnit]⟩
    obtain ⟨k1, k2⟩ := rationalLoop_spec hrf rng r.factors (fun g hg => by
      refine lt_of_le_of_lt (Nat.mul_le_mul_left _ ?_) hdeg
      have := hpd g hg
      rw [hone g hg, pow_one] at this
      exact natDegree_le_of_dvd this hc0) _ F hu e
    refine ⟨(valid_iff F).1 k1, k2.trans ?_⟩
    have h3 : (Factored.factoredUnit (polyConst r.unit)).denote (polyVal (el f)) *
        (r.factors.map fun g => (qp g.1).map (algebraMap ℚ (NumField f))).prod = (r.denote qp).map (algebraMap ℚ (NumField f)) := by
      unfold Factored.denote
      simp only [Factored.factoredUnit, List.map_nil, List.prod_nil, mul_one]
      rw [el_unit _ c3.unit, Polynomial.map_mul, Polynomial.map_list_prod, List.map_map]
      congr 2
      exact List.map_congr_left fun g hg => by rw [Function.comp, hone g hg, pow_one]
    rw [h3, hP]
    exact c4.map (mapRingHom (algebraMap ℚ (NumField f)))

theorem anfFactor_spec {N : Nat} {ratFactor : List ℚ → Option (Option (Factored (List ℚ)))} (hrf : RatFactorOk N ratFactor)
    (rng : Nat → Nat → Nat → Nat → Nat → ℚ) (p : List (List ℚ)) (hN : (qp f).natDegree * (polyVal (el f) p).natDegree < N)
    (r : Option (Factored (List (List ℚ)))) (e : anfFactor ratFactor f rng p = some r) :
    (polyVal (el f) p = 0 → r = none) ∧ (polyVal (el f) p ≠ 0 → ∃ F, r = some F ∧ FactorsOver f F ∧
      Associated (F.denote (polyVal (el f))) (polyVal (el f) p)) := by
  unfold anfFactor at e
  constructor
  · intro h0
    rw [(anf_poly_models.isZero p).2 h0, if_pos rfl] at e
    exact (Option.some.inj e).symm
  · intro h0
    rw [(anf_poly_models.isZero_false p).2 h0, if_neg (by decide)] at e
    obtain ⟨F, e1, rfl⟩ := Option.map_eq_some_iff.1 e
    refine ⟨F, rfl, ?_⟩
    classical
    haveI : CharZero (NumField f) := algebraRat.charZero _
    let sq' : List (List ℚ) → Option (Factored (List (List ℚ))) := fun a =>
      match rationalFirst ratFactor f (reducedRing ratFactor f rng) a with
      | some F => some F
      | none => if h : polyVal (el f) a ≠ 0 ∧ Squarefree (polyVal (el f) a) then some (exists_factored _ h.1 h.2).choose else none
    have hmono : ∀ a r, rationalFirst ratFactor f (reducedRing ratFactor f rng) a = some r → sq' a = some r := by
      intro a r h
      simp only [sq', h]
    have hsq : SqfreeUpTo (anfUfd f) (el f) (polyVal (el f) p).natDegree sq' := by
      intro a ha1 ha2 ha3
      cases hq : rationalFirst ratFactor f (reducedRing ratFactor f rng) a with
      | some F' =>
        obtain ⟨k1, k2⟩ := rationalFirst_spec hrf rng a (lt_of_le_of_lt (Nat.mul_le_mul_left _ ha3) hN) ha2 F' hq
        exact ⟨F', hmono a F' hq, (valid_iff F').2 k1, k2⟩
      | none =>
        have hc : polyVal (el f) a ≠ 0 ∧ Squarefree (polyVal (el f) a) := ⟨ha2.ne_zero, ha2⟩
        obtain ⟨k1, k2⟩ := (exists_factored _ hc.1 hc.2).choose_spec
        exact ⟨_, by simp only [sq', hq, dif_pos hc], (valid_iff _).2 k1, k2⟩
    obtain ⟨r, r1, r2, r3⟩ := factorizeYun_assoc anfUfd_models anf_primGcd hsq p h0 le_rfl
    rw [factorizeYun_mono hmono _ _ e1] at r1
    cases r1
    exact ⟨(valid_iff F).1 r2, r3⟩

theorem reducedRational_total {N : Nat} {ratFactor : List ℚ → Option (Option (Factored (List ℚ)))} (hrf : RatFactorOk N ratFactor)
    (ht : RatFactorReturns N ratFactor) (h1 : (qp f).natDegree = 1) (p : List (List ℚ)) (hp : polyVal (el f) p ≠ 0)
    (hN : (polyVal (el f) p).natDegree < N) : ∃ F, reducedRational ratFactor f p = some F := by
  have hc : ∀ c : List ℚ, ∃ x, (ratOps.pqReduce f c).bind ratOps.polyAsConstant = some x := by
    intro c
    obtain ⟨r, q1, q2⟩ := ratOps_models.polyRemMod c f (irr_ne f)
    have q1' : ratOps.pqReduce f c = some r := q1
    have hd : (qp r).degree < 1 := by
      rw [q2]
      have := EuclideanDomain.mod_lt (qp c) (irr_ne f)
      change (qp c % qp f).degree < (qp f).degree at this
      rwa [degree_eq_natDegree (irr_ne f), h1] at this
    obtain ⟨y, hy⟩ : ∃ y, qp r = C y := ⟨_, eq_C_of_degree_le_zero (Nat.WithBot.lt_one_iff_le_zero.1 hd)⟩
    obtain ⟨x, x1, -⟩ := ratOps_models.toRing.toSemi.polyAsConstant_some r y hy
    exact ⟨x, by rw [q1', Option.bind_some, x1]⟩
  obtain ⟨cs, a1⟩ : ∃ cs, (p.mapM fun c => (ratOps.pqReduce f c).bind ratOps.polyAsConstant) = some cs := by
    clear hp hN
    induction p with
    | nil => exact ⟨[], rfl⟩
    | cons c p ih =>
      obtain ⟨cs, h⟩ := ih
      obtain ⟨x, hx⟩ := hc c
      exact ⟨x :: cs, by rw [List.mapM_cons, hx, h]; rfl⟩
  have hP : polyVal (el f) p = (qp cs).map (algebraMap ℚ (NumField f)) := rat_coeffs (fun c x hc => by
    obtain ⟨b, b1, b2⟩ := Option.bind_eq_some_iff.1 hc
    rw [pqReduce_el c b b1]
    exact el_of_rat b x (asConstant_sound b x b2)) a1
  have hc0 : qp cs ≠ 0 := fun h0 => hp (by rw [hP, h0, Polynomial.map_zero])
  have hN' : (qp cs).natDegree < N := by
    rw [hP, natDegree_map] at hN
    exact hN
  obtain ⟨r', c1⟩ := ht cs hc0 hN'
  obtain ⟨r'', rfl, -, -⟩ := hrf cs r' hc0 hN' c1
  unfold reducedRational
  rw [a1]
  simp only [Option.bind_eq_bind, Option.bind_some, c1, id]
  exact ⟨_, rfl⟩

theorem reducedRing_total {N : Nat} {ratFactor : List ℚ → Option (Option (Factored (List ℚ)))} (hrf : RatFactorOk N ratFactor)
    (ht : RatFactorReturns N ratFactor) (h1 : (qp f).natDegree = 1) (rng : Nat → Nat → Nat → Nat → Nat → ℚ) (p : List (List ℚ))
    (hp : polyVal (el f) p ≠ 0) (hN : (polyVal (el f) p).natDegree < N) : ∃ F, reducedRing ratFactor f rng p = some F := by
  obtain ⟨F, hF⟩ := reducedRational_total hrf ht h1 p hp hN
  refine ⟨F, ?_⟩
  unfold reducedRing
  have h2 : ratOps.pqDegree f = some (qp f).natDegree := ratOps_models.pqDegree f (irr_ne f)
  have h3 : (anfOps f).toSemiRingOps.poly.isZero p = false := (anf_poly_models.isZero_false p).2 hp
  rw [h2, h3, h1]
  simpa [assertThat] using hF

theorem rationalFirst_total {N : Nat} {ratFactor : List ℚ → Option (Option (Factored (List ℚ)))} (hrf : RatFactorOk N ratFactor)
    (ht : RatFactorReturns N ratFactor) (h1 : (qp f).natDegree = 1) (rng : Nat → Nat → Nat → Nat → Nat → ℚ) (p : List (List ℚ))
    (hp : polyVal (el f) p ≠ 0) (hN : (polyVal (el f) p).natDegree < N) :
    ∃ F, rationalFirst ratFactor f (reducedRing ratFactor f rng) p = some F := by
  have h3 : (anfOps f).toSemiRingOps.poly.isZero p = false := (anf_poly_models.isZero_false p).2 hp
  cases hcs : p.mapM ratOps.polyAsConstant with
  | none =>
    obtain ⟨F, hF⟩ := reducedRing_total hrf ht h1 rng p hp hN
    refine ⟨F, ?_⟩
    unfold rationalFirst
    rw [h3, hcs]
    simpa [assertThat] using hF
  | some cs =>
    have hP : polyVal (el f) p = (qp cs).map (algebraMap ℚ (NumField f)) :=
      rat_coeffs (fun c x hc => el_of_rat c x (asConstant_sound c x hc)) hcs
    have hc0 : qp cs ≠ 0 := fun h0 => hp (by rw [hP, h0, Polynomial.map_zero])
    have hN' : (qp cs).natDegree < N := by
      rw [hP, natDegree_map] at hN
      exact hN
    obtain ⟨r', c1⟩ := ht cs hc0 hN'
    obtain ⟨r, rfl, c3, c4⟩ := hrf cs r' hc0 hN' c1
    have hloop : ∀ (l : List (List ℚ × Nat)), (∀ g ∈ l, qp g.1 ≠ 0 ∧ (qp g.1).natDegree < N) →
        ∀ st : Factored (List (List ℚ)), st.Valid (anfUfd f).toFavOps.poly (polyVal (el f)) →
        ∃ F, l.foldlM (rationalLoop f (reducedRing ratFactor f rng)) st = some F := by
      intro l
      induction l with
      | nil => exact fun _ st _ => ⟨st, rfl⟩
      | cons g l ih =>
        intro hl st hst
        obtain ⟨g1, g2⟩ := hl g List.mem_cons_self
        have hk : polyVal (el f) (g.1.map polyConst) = (qp g.1).map (algebraMap ℚ (NumField f)) := polyVal_consts g.1
        have hdg : (polyVal (el f) (g.1.map polyConst)).natDegree < N := by rw [hk, natDegree_map]; exact g2
        obtain ⟨h, hh⟩ := reducedRing_total hrf ht h1 rng (g.1.map polyConst)
          (by rw [hk]; exact (Polynomial.map_ne_zero_iff (algebraMap ℚ (NumField f)).injective).2 g1) hdg
        obtain ⟨-, t1, -, -⟩ := reducedRing_spec hrf rng _ (by rw [h1, one_mul]; exact hdg) h hh
        have t3 := (valid_iff h).2 t1
        obtain ⟨c, e1, -, e3⟩ := Factored.mul_spec (anfUfd_models (f := f)).toGcd.toFav.poly st h hst.fav t3.fav
        obtain ⟨F, hF⟩ := ih (fun y hy => hl y (List.mem_cons_of_mem _ hy)) c (e3 hst t3)
        refine ⟨F, ?_⟩
        rw [List.foldlM_cons]
        have : rationalLoop f (reducedRing ratFactor f rng) st g = some c := by
          unfold rationalLoop
          rw [hh]
          exact e1
        rw [this]
        exact hF
    obtain ⟨F, hF⟩ := hloop r.factors (fun g hg => by
      have hd : qp g.1 ∣ qp cs := by
        have h5 : qp g.1 ^ g.2 ∣ qp cs :=
          ((List.dvd_prod (List.mem_map_of_mem (f := fun p : List ℚ × Nat => qp p.1 ^ p.2) hg)).trans (Dvd.intro_left _ rfl)).trans c4.dvd
        exact (dvd_pow_self _ (c3.pos g hg).ne').trans h5
      exact ⟨(c3.irreducible g hg).ne_zero, lt_of_le_of_lt (natDegree_le_of_dvd hd hc0) hN'⟩) (Factored.factoredUnit (polyConst r.unit))
      ⟨by
        change IsUnit (polyVal (el f) (polyConst r.unit))
        rw [el_unit _ c3.unit]
        exact c3.unit.map (mapRingHom (algebraMap ℚ (NumField f))), by simp [Factored.factoredUnit], by simp [Factored.factoredUnit],
        by simp [Factored.factoredUnit], by simp [Factored.factoredUnit]⟩
    refine ⟨F, ?_⟩
    unfold rationalFirst
    rw [h3, hcs]
    simpa [assertThat, c1] using hF

theorem anfFactor_total {N : Nat} {ratFactor : List ℚ → Option (Option (Factored (List ℚ)))} (hrf : RatFactorOk N ratFactor)
    (ht : RatFactorReturns N ratFactor) (h1 : (qp f).natDegree = 1) (rng : Nat → Nat → Nat → Nat → Nat → ℚ) (p : List (List ℚ))
    (hN : (polyVal (el f) p).natDegree < N) : ∃ r, anfFactor ratFactor f rng p = some r := by
  unfold anfFactor
  by_cases h0 : polyVal (el f) p = 0
  · exact ⟨none, by rw [(anf_poly_models.isZero p).2 h0, if_pos rfl]⟩
  · rw [(anf_poly_models.isZero_false p).2 h0, if_neg (by decide)]
    haveI : CharZero (NumField f) := algebraRat.charZero _
    have hsq : SqfreeUpTo (anfUfd f) (el f) (polyVal (el f) p).natDegree (rationalFirst ratFactor f (reducedRing ratFactor f rng)) := by
      intro a ha1 ha2 ha3
      obtain ⟨F, hF⟩ := rationalFirst_total hrf ht h1 rng a ha2.ne_zero (lt_of_le_of_lt ha3 hN)
      obtain ⟨k1, k2⟩ := rationalFirst_spec hrf rng a (by rw [h1, one_mul]; exact lt_of_le_of_lt ha3 hN) ha2 F hF
      exact ⟨F, hF, (valid_iff F).2 k1, k2⟩
    obtain ⟨r, r1, -⟩ := factorizeYun_assoc anfUfd_models anf_primGcd hsq p h0 le_rfl
    exact ⟨some r, by rw [r1]; rfl⟩

end
end Verif.Anf
