import Verif.Proofs.AnfFactorYun

/-! The exponents of the rational factors. -/

namespace Verif.Anf
open Verif.Rings Polynomial

local notation "qp" => polyVal (id : ℚ → ℚ)

theorem squarefree_prod_monic (l : List ℚ[X]) (hm : ∀ g ∈ l, g.Monic) (hi : ∀ g ∈ l, Irreducible g) (hn : l.Nodup) : Squarefree l.prod := by
  induction l with
  | nil => rw [List.prod_nil]; exact squarefree_one
  | cons g l ih =>
    rw [List.prod_cons, squarefree_mul_iff]
    have hg := hi g List.mem_cons_self
    refine ⟨?_, hg.squarefree, ih (fun x hx => hm x (List.mem_cons_of_mem _ hx)) (fun x hx => hi x (List.mem_cons_of_mem _ hx)) (List.nodup_cons.1 hn).2⟩
    rw [hg.isRelPrime_iff_not_dvd]
    intro hd
    obtain ⟨x, hx, hd⟩ := (hg.prime.dvd_prod_iff).1 hd
    have hass := hg.associated_of_dvd (hi x (List.mem_cons_of_mem _ hx)) hd
    have := eq_of_monic_of_associated (hm g List.mem_cons_self) (hm x (List.mem_cons_of_mem _ hx)) hass
    exact (List.nodup_cons.1 hn).1 (this ▸ hx)

variable {f : List ℚ} [hirr : Fact (Irreducible (qp f))]

/-- for a polynomial with rational coefficients, the product is squarefree, whatever the polynomial -/
theorem rationalFirst_squarefree {N : Nat} {ratFactor : List ℚ → Option (Option (Factored (List ℚ)))} (hrf : RatFactorOk N ratFactor)
    (rng : Nat → Nat → Nat → Nat → Nat → ℚ) (p : List (List ℚ)) (hN : (qp f).natDegree * (polyVal (el f) p).natDegree < N)
    {cs : List ℚ} (hcs : p.mapM ratOps.polyAsConstant = some cs) (F : Factored (List (List ℚ)))
    (e : rationalFirst ratFactor f (reducedRing ratFactor f rng) p = some F) :
    FactorsOver f F ∧ Squarefree (F.denote (polyVal (el f))) ∧ F.denote (polyVal (el f)) ∣ polyVal (el f) p := by
  unfold rationalFirst at e
  simp only [Option.bind_eq_bind, hcs] at e
  obtain ⟨_, hz, e⟩ := Option.bind_eq_some_iff.1 e
  obtain ⟨r, r1, e⟩ := Option.bind_eq_some_iff.1 e
  have hP : polyVal (el f) p = (qp cs).map (algebraMap ℚ (NumField f)) :=
    rat_coeffs (fun c x hc => el_of_rat c x (asConstant_sound c x hc)) hcs
  have hp0 : polyVal (el f) p ≠ 0 := by
    intro h0
    rw [(anf_poly_models.isZero p).2 h0] at hz
    cases hz
  have hk := irr_pos f
  have hc0 : qp cs ≠ 0 := fun h0 => hp0 (by rw [hP, h0, Polynomial.map_zero])
  have hdeg : (qp f).natDegree * (qp cs).natDegree < N := by
    rw [hP, natDegree_map] at hN
    exact hN
  obtain ⟨r', c1, c2⟩ := Option.bind_eq_some_iff.1 r1
  obtain ⟨r'', rfl, c3, c4⟩ := hrf cs r' hc0 (lt_of_le_of_lt (Nat.le_mul_of_pos_left _ hk) hdeg) c1
  cases c2
  have hpd : ∀ g ∈ r.factors, qp g.1 ^ g.2 ∣ qp cs := fun g hg =>
    ((List.dvd_prod (List.mem_map_of_mem (f := fun p : List ℚ × Nat => qp p.1 ^ p.2) hg)).trans (Dvd.intro_left _ rfl)).trans c4.dvd
  have hu : (Factored.factoredUnit (polyConst r.unit)).Valid (anfUfd f).toFavOps.poly (polyVal (el f)) :=
    ⟨by
      change IsUnit (polyVal (el f) (polyConst r.unit))
      rw [el_unit _ c3.unit]
      exact c3.unit.map (mapRingHom (algebraMap ℚ (NumField f))), by simp [Factored.factoredUnit], by simp [Factored.factoredUnit],
      by simp [Factored.factoredUnit], by simp [Factored.factoredUnit]⟩
  obtain ⟨k1, k2⟩ := rationalLoop_spec hrf rng r.factors (fun g hg => by
    refine lt_of_le_of_lt (Nat.mul_le_mul_left _ ?_) hdeg
    exact natDegree_le_of_dvd ((dvd_pow_self _ (c3.pos g hg).ne').trans (hpd g hg)) hc0) _ F hu e
  refine ⟨(valid_iff F).1 k1, ?_⟩
  have hq : Squarefree (r.factors.map fun g => qp g.1).prod := by
    refine squarefree_prod_monic _ ?_ ?_ c3.distinct
    · intro x hx
      obtain ⟨g, hg, rfl⟩ := List.mem_map.1 hx
      exact ratOps_models.polyFav_monic (c3.irreducible g hg).ne_zero (c3.fav g hg)
    · intro x hx
      obtain ⟨g, hg, rfl⟩ := List.mem_map.1 hx
      exact c3.irreducible g hg
  have h3 : Associated (F.denote (polyVal (el f))) ((r.factors.map fun g => qp g.1).prod.map (algebraMap ℚ (NumField f))) := by
    refine k2.trans ?_
    rw [Polynomial.map_list_prod, List.map_map]
    have h4 : IsUnit ((Factored.factoredUnit (polyConst r.unit)).denote (polyVal (el f))) := by
      unfold Factored.denote
      simp only [Factored.factoredUnit, List.map_nil, List.prod_nil, mul_one]
      rw [el_unit _ c3.unit]
      exact c3.unit.map (mapRingHom (algebraMap ℚ (NumField f)))
    exact associated_unit_mul_left _ _ h4
  constructor
  · refine h3.squarefree_iff.2 ?_
    exact ((PerfectField.separable_iff_squarefree.2 hq).map).squarefree
  · refine h3.dvd.trans ?_
    rw [hP]
    refine Polynomial.map_dvd _ (dvd_trans ?_ c4.dvd)
    refine dvd_mul_of_dvd_right ?_ _
    have : ∀ l : List (List ℚ × Nat), (∀ g ∈ l, 0 < g.2) →
        (l.map fun g => qp g.1).prod ∣ (l.map fun g => qp g.1 ^ g.2).prod := by
      intro l
      induction l with
      | nil => exact fun _ => dvd_rfl
      | cons g l ih =>
        intro h
        rw [List.map_cons, List.prod_cons, List.map_cons, List.prod_cons]
        exact mul_dvd_mul (dvd_pow_self _ (h g List.mem_cons_self).ne') (ih fun x hx => h x (List.mem_cons_of_mem _ hx))
    exact this _ c3.pos

end Verif.Anf
