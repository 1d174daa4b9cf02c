import Verif.Proofs.AnfFactorReduced
import Verif.Spec.AnfFactor
import Verif.Proofs.PolyFactorFof
import Verif.Proofs.SmithPoly

/-! Factoring a polynomial over a number field by way of the polynomial of a generator. -/

namespace Verif.Anf
open Verif.Rings Polynomial

local notation "qp" => polyVal (id : ℚ → ℚ)

theorem forall₂_zip {β γ : Type} {R : β → γ → Prop} : ∀ {l : List β} {r : List γ}, List.Forall₂ R l r →
    (l.zip r).map Prod.fst = l ∧ (l.zip r).map Prod.snd = r ∧ ∀ x ∈ l.zip r, R x.1 x.2 := by
  intro l r h
  induction h with
  | nil => simp
  | cons h1 _ ih =>
    refine ⟨by simp [ih.1], by simp [ih.2.1], fun x hx => ?_⟩
    rw [List.zip_cons_cons, List.mem_cons] at hx
    rcases hx with rfl | hx
    · exact h1
    · exact ih.2.2 x hx

theorem natDegree_prod_list (l : List ℚ[X]) (h : ∀ x ∈ l, x ≠ 0) : l.prod.natDegree = (l.map natDegree).sum := by
  induction l with
  | nil => simp
  | cons x l ih =>
    have h1 : l.prod ≠ 0 := List.prod_ne_zero fun h0 => h 0 (List.mem_cons_of_mem _ h0) rfl
    rw [List.prod_cons, natDegree_mul (h x List.mem_cons_self) h1, ih fun y hy => h y (List.mem_cons_of_mem _ hy)]
    simp

section
variable {f : List ℚ} [hirr : Fact (Irreducible (qp f))]

theorem fav_monic {g : ℚ[X]} (hg : Irreducible g) (h : ratOps.fieldFav.poly.IsFav qp g) : g.Monic :=
  ratOps_models.polyFav_monic hg.ne_zero h

theorem monic_fav {α K : Type} [Field K] {S : DomainOps α} {v : α → K} (h : S.Models v) {g : K[X]} (hg : g.Monic) : S.fieldFav.poly.IsFav (polyVal v) g := by
  have hF := h.fieldFav.poly
  intro a u w ha e
  obtain ⟨u', w', e', h1, h2⟩ := hF.fav a
  rw [e'] at e
  cases e
  have hass : Associated (polyVal v w) (polyVal v a) := by
    rw [h2]; exact associated_unit_mul_right _ _ h1
  have hw : S.fieldFav.poly.IsFav (polyVal v) (polyVal v w) := by
    intro b u'' w'' hb e''
    exact (hF.fav_unique b a u'' w'' u w (by rw [hb]; exact hass) e'' e')
  have hm : (polyVal v w).Monic := h.polyFav_monic (by
    intro h0
    rw [h0] at hass
    exact hg.ne_zero (by rw [← ha]; exact (hass.eq_zero_iff).1 rfl)) hw
  rw [← ha] at hg ⊢
  exact eq_of_monic_of_associated hm hg hass

/-- the case of degree at least two -/
theorem reducedGeneral_spec {N : Nat} {ratFactor : List ℚ → Option (Option (Factored (List ℚ)))} (hrf : RatFactorOk N ratFactor)
    (rng : Nat → Nat → Nat → Nat → Nat → ℚ) (p : List (List ℚ)) (hp : polyVal (el f) p ≠ 0)
    (hN : (qp f).natDegree * (polyVal (el f) p).natDegree < N) (F : Factored (List (List ℚ)))
    (e : reducedGeneral ratFactor f rng (qp f).natDegree p = some F) :
    polyVal (el f) F.unit = 1 ∧ FactorsOver f F ∧ (∀ g ∈ F.factors, g.2 = 1) ∧
      C (polyVal (el f) p).leadingCoeff * (F.factors.map fun g => polyVal (el f) g.1).prod = polyVal (el f) p := by
  unfold reducedGeneral at e
  simp only [Option.bind_eq_bind] at e
  obtain ⟨_, -, e⟩ := Option.bind_eq_some_iff.1 e
  obtain ⟨pDeg, a1, e⟩ := Option.bind_eq_some_iff.1 e
  obtain ⟨am, a2, e⟩ := Option.bind_eq_some_iff.1 e
  obtain ⟨q, a3, e⟩ := Option.bind_eq_some_iff.1 e
  obtain ⟨gen, a4, e⟩ := Option.bind_eq_some_iff.1 e
  obtain ⟨x, a5, e⟩ := Option.bind_eq_some_iff.1 e
  obtain ⟨r, a6, e⟩ := Option.bind_eq_some_iff.1 e
  obtain ⟨factors, a7, e⟩ := Option.bind_eq_some_iff.1 e
  cases e
  rw [anfOps_models.pqDegree p hp] at a1
  cases a1
  obtain ⟨alpha, m⟩ := am
  obtain ⟨b1, b2⟩ := alphaSearch_spec _ _ _ _ _ _ a2
  obtain ⟨A, g⟩ := genData hp (mul_comm _ _) b1 b2
  obtain ⟨q1, q2, q3⟩ := g.poly a3
  have hgen := g.lToLa a4
  have hx := g.lToLa a5
  obtain ⟨r', c1, c2⟩ := Option.bind_eq_some_iff.1 a6
  obtain ⟨r'', rfl, c3, c4⟩ := hrf q r' q1.ne_zero (by rw [q2]; exact hN) c1
  cases c2
  obtain ⟨z1, z2, z3⟩ := forall₂_zip (mapM_some_getElem a7)
  let l : List (ℚ[X] × (NumField f)[X]) := (r.factors.zip factors).map fun y => (qp y.1.1, polyVal (el f) y.2)
  have hone : ∀ y ∈ r.factors, y.2 = 1 := by
    intro y hy
    rw [← z1] at hy
    obtain ⟨w, hw, rfl⟩ := List.mem_map.1 hy
    exact (g.reducedFactor hgen hx (z3 w hw)).1
  have hl1 : l.map Prod.fst = r.factors.map fun y => qp y.1 := by
    conv_rhs => rw [← z1]
    simp [l]
  have hl2 : l.map Prod.snd = factors.map (polyVal (el f)) := by
    conv_rhs => rw [← z2]
    simp [l]
  have hden : Associated ((r.factors.map fun y => qp y.1).prod) (qp q) := by
    refine Associated.trans ?_ c4
    unfold Factored.denote
    have : (r.factors.map fun p => qp p.1 ^ p.2) = r.factors.map fun y => qp y.1 :=
      List.map_congr_left fun y hy => by rw [hone y hy, pow_one]
    rw [this]
    exact associated_unit_mul_right _ _ c3.unit
  have hlmem : ∀ y ∈ l, ∃ w ∈ r.factors, qp w.1 = y.1 := by
    intro y hy
    have : y.1 ∈ l.map Prod.fst := List.mem_map_of_mem hy
    rw [hl1] at this
    obtain ⟨w, hw, e⟩ := List.mem_map.1 this
    exact ⟨w, hw, e⟩
  have hmain := product_core hp g.surj (g.ker q1 q2 q3) (by rw [q2, finrank_eq]) l (by
      intro y hy
      obtain ⟨w, hw, e1⟩ := hlmem y hy
      obtain ⟨w', hw', rfl⟩ := List.mem_map.1 hy
      obtain ⟨s1, s2, s3, s4⟩ := g.reducedFactor hgen hx (z3 w' hw')
      refine ⟨e1 ▸ c3.irreducible w hw, ?_, s2, s3, s4⟩
      rw [← e1]
      exact (List.dvd_prod (List.mem_map_of_mem (f := fun y : List ℚ × Nat => qp y.1) hw)).trans hden.dvd) (by
      have h1 : (l.map Prod.fst).Nodup := by rw [hl1]; exact c3.distinct
      have h2 : l.Pairwise fun x y => x.1 ≠ y.1 := List.pairwise_map.1 h1
      refine h2.imp_of_mem fun {a b} ha hb hab hd => hab ?_
      obtain ⟨w, hw, e1⟩ := hlmem a ha
      obtain ⟨w', hw', e2⟩ := hlmem b hb
      have i1 := c3.irreducible w hw
      have i2 := c3.irreducible w' hw'
      have m1 := fav_monic i1 (c3.fav w hw)
      have m2 := fav_monic i2 (c3.fav w' hw')
      rw [e1] at i1 m1
      rw [e2] at i2 m2
      exact eq_of_monic_of_associated m1 m2 (i1.associated_of_dvd i2 hd)) (by
      have h1 : (l.map fun x => x.1.natDegree) = (l.map Prod.fst).map natDegree := by simp only [List.map_map, Function.comp_def]
      rw [h1, hl1, ← natDegree_prod_list]
      · exact natDegree_eq_of_degree_eq (degree_eq_degree_of_associated hden)
      · intro y hy
        obtain ⟨w, hw, rfl⟩ := List.mem_map.1 hy
        exact (c3.irreducible w hw).ne_zero)
  obtain ⟨h1, h2, h3⟩ := hmain
  have hmap : ((factors.map fun g => (g, 1)).map fun g : List (List ℚ) × Nat => polyVal (el f) g.1) = l.map Prod.snd := by
    rw [hl2, List.map_map]
    rfl
  have hu : polyVal (el f) ((anfOps f).toSemiRingOps.poly.one) = 1 := anf_poly_models.one
  have hmem : ∀ g' ∈ factors.map fun g => (g, 1), ∃ y ∈ l, y.2 = polyVal (el f) g'.1 := by
    intro g' hg'
    have : polyVal (el f) g'.1 ∈ l.map Prod.snd := by rw [← hmap]; exact List.mem_map_of_mem (f := fun g : List (List ℚ) × Nat => polyVal (el f) g.1) hg'
    obtain ⟨y, hy, e⟩ := List.mem_map.1 this
    exact ⟨y, hy, e⟩
  refine ⟨hu, ⟨by rw [hu]; exact isUnit_one, ?_, ?_, ?_, ?_⟩, ?_, ?_⟩
  · intro g' hg'
    obtain ⟨y, hy, e⟩ := hmem g' hg'
    obtain ⟨w', hw', rfl⟩ := List.mem_map.1 hy
    rw [← e]
    exact (g.reducedFactor hgen hx (z3 w' hw')).2.1
  · intro g' hg'
    obtain ⟨y, hy, e⟩ := hmem g' hg'
    rw [← e]
    exact h1 y hy
  · intro g' hg'
    obtain ⟨w, -, rfl⟩ := List.mem_map.1 hg'
    exact Nat.one_pos
  · rw [hmap]; exact h2
  · intro g' hg'
    obtain ⟨w, -, rfl⟩ := List.mem_map.1 hg'
    rfl
  · rw [hmap]; exact h3

theorem asConstant_sound (c : List ℚ) (x : ℚ) (e : ratOps.polyAsConstant c = some x) : qp c = C x := by
  by_cases h : ∃ y, qp c = C y
  · obtain ⟨y, hy⟩ := h
    obtain ⟨x', h1, h2⟩ := ratOps_models.toRing.toSemi.polyAsConstant_some c y hy
    rw [h1] at e
    cases e
    rw [hy, ← h2]
    rfl
  · have := ratOps_models.toRing.toSemi.polyAsConstant_none c fun y hy => h ⟨y, hy⟩
    rw [this] at e
    cases e

theorem el_of_rat (c : List ℚ) (x : ℚ) (h : qp c = C x) : el f c = algebraMap ℚ (NumField f) x := by
  unfold el
  rw [h]
  rfl

theorem rat_coeffs {g : List ℚ → Option ℚ} (hg : ∀ c x, g c = some x → el f c = algebraMap ℚ (NumField f) x) {p : List (List ℚ)} {cs : List ℚ}
    (e : p.mapM g = some cs) : polyVal (el f) p = (qp cs).map (algebraMap ℚ (NumField f)) := by
  have h := mapM_some_getElem e
  clear e
  induction h with
  | nil => simp [polyVal]
  | cons h1 _ ih =>
    rw [polyVal_cons, polyVal_cons, ih, hg _ _ h1, Polynomial.map_add, Polynomial.map_mul, map_X, map_C]
    rfl

theorem polyVal_consts (g : List ℚ) : polyVal (el f) (g.map polyConst) = (qp g).map (algebraMap ℚ (NumField f)) :=
  polyVal_map (id : ℚ → ℚ) (el f) polyConst (algebraMap ℚ (NumField f)) (fun c => el_const c) g

theorem el_unit (u : List ℚ) (hu : IsUnit (qp u)) : polyVal (el f) (polyConst u) = (qp u).map (algebraMap ℚ (NumField f)) := by
  obtain ⟨c, -, hc⟩ := Polynomial.isUnit_iff.1 hu
  rw [polyVal_const, el_of_rat u c hc.symm, ← hc, map_C]

theorem pqReduce_el (c r : List ℚ) (e : ratOps.pqReduce f c = some r) : el f c = el f r := by
  obtain ⟨r', q1, q2⟩ := ratOps_models.polyRemMod c f (irr_ne f)
  change ratOps.polyEuc.rem c f = some r at e
  rw [q1] at e
  cases e
  unfold el
  rw [q2, ← sub_eq_zero, ← map_sub, AdjoinRoot.mk_eq_zero]
  exact ⟨qp c / qp f, sub_eq_of_eq_add (EuclideanDomain.div_add_mod (qp c) (qp f)).symm⟩

theorem algebraMap_bij (h1 : (qp f).natDegree = 1) : Function.Bijective (algebraMap ℚ (NumField f)) := by
  refine ⟨(algebraMap ℚ (NumField f)).injective, fun x => ?_⟩
  have h2 : (⊥ : Subalgebra ℚ (NumField f)) = ⊤ := Subalgebra.bot_eq_top_iff_finrank_eq_one.2 (by rw [finrank_eq, h1])
  have : x ∈ (⊥ : Subalgebra ℚ (NumField f)) := by rw [h2]; trivial
  exact Algebra.mem_bot.1 this

/-- the case of degree one -/
theorem reducedRational_spec {N : Nat} {ratFactor : List ℚ → Option (Option (Factored (List ℚ)))} (hrf : RatFactorOk N ratFactor)
    (h1 : (qp f).natDegree = 1) (p : List (List ℚ)) (hp : polyVal (el f) p ≠ 0) (hN : (polyVal (el f) p).natDegree < N)
    (F : Factored (List (List ℚ))) (e : reducedRational ratFactor f p = some F) :
    FactorsOver f F ∧ Associated (F.denote (polyVal (el f))) (polyVal (el f) p) := by
  unfold reducedRational at e
  simp only [Option.bind_eq_bind] at e
  obtain ⟨cs, a1, e⟩ := Option.bind_eq_some_iff.1 e
  obtain ⟨r, a2, e⟩ := Option.bind_eq_some_iff.1 e
  cases e
  have hP : polyVal (el f) p = (qp cs).map (algebraMap ℚ (NumField f)) := rat_coeffs (fun c x hc => by
    obtain ⟨b, b1, b2⟩ := Option.bind_eq_some_iff.1 hc
    rw [pqReduce_el c b b1]
    exact el_of_rat b x (asConstant_sound b x b2)) a1
  obtain ⟨r', c1, c2⟩ := Option.bind_eq_some_iff.1 a2
  have hc0 : qp cs ≠ 0 := fun h0 => hp (by rw [hP, h0, Polynomial.map_zero])
  obtain ⟨r'', rfl, c3, c4⟩ := hrf cs r' hc0 (by
    rw [hP, natDegree_map] at hN
    exact hN) c1
  cases c2
  let φ : ℚ[X] ≃+* (NumField f)[X] := mapEquiv (RingEquiv.ofBijective (algebraMap ℚ (NumField f)) (algebraMap_bij h1))
  have hφ : ∀ g : ℚ[X], φ g = g.map (algebraMap ℚ (NumField f)) := fun g => rfl
  have hg : ∀ g : List ℚ, polyVal (el f) (g.map polyConst) = φ (qp g) := fun g => by rw [polyVal_consts, hφ]
  refine ⟨⟨?_, ?_, ?_, ?_, ?_⟩, ?_⟩
  · rw [el_unit _ c3.unit, ← hφ]
    exact c3.unit.map φ
  · intro g hgm
    obtain ⟨w, hw, rfl⟩ := List.mem_map.1 hgm
    rw [hg, hφ]
    exact (fav_monic (c3.irreducible w hw) (c3.fav w hw)).map _
  · intro g hgm
    obtain ⟨w, hw, rfl⟩ := List.mem_map.1 hgm
    rw [hg]
    exact (MulEquiv.irreducible_iff φ).2 (c3.irreducible w hw)
  · intro g hgm
    obtain ⟨w, hw, rfl⟩ := List.mem_map.1 hgm
    exact c3.pos w hw
  · rw [List.map_map]
    have : ((fun g : List (List ℚ) × Nat => polyVal (el f) g.1) ∘ fun g : List ℚ × Nat => (g.1.map polyConst, g.2)) = φ ∘ fun g => qp g.1 := by
      funext g
      exact hg g.1
    rw [this, ← List.map_map]
    exact c3.distinct.map φ.injective
  · rw [hP, ← hφ]
    have h : Factored.denote (polyVal (el f)) ⟨polyConst r.unit, r.factors.map fun g => (g.1.map polyConst, g.2)⟩ = φ (r.denote qp) := by
      unfold Factored.denote
      rw [map_mul, el_unit _ c3.unit, map_list_prod, List.map_map, List.map_map, ← hφ]
      congr 2
      refine List.map_congr_left fun g _ => ?_
      simp only [Function.comp, hg, map_pow]
    rw [h]
    exact c4.map φ

theorem reducedRing_spec {N : Nat} {ratFactor : List ℚ → Option (Option (Factored (List ℚ)))} (hrf : RatFactorOk N ratFactor)
    (rng : Nat → Nat → Nat → Nat → Nat → ℚ) (p : List (List ℚ)) (hN : (qp f).natDegree * (polyVal (el f) p).natDegree < N)
    (F : Factored (List (List ℚ))) (e : reducedRing ratFactor f rng p = some F) :
    polyVal (el f) p ≠ 0 ∧ FactorsOver f F ∧ Associated (F.denote (polyVal (el f))) (polyVal (el f) p) ∧
      ((qp f).natDegree ≠ 1 → (∀ g ∈ F.factors, g.2 = 1) ∧ C (polyVal (el f) p).leadingCoeff * F.denote (polyVal (el f)) = polyVal (el f) p) := by
  unfold reducedRing at e
  simp only [Option.bind_eq_bind] at e
  obtain ⟨_, a1, e⟩ := Option.bind_eq_some_iff.1 e
  obtain ⟨k, a2, e⟩ := Option.bind_eq_some_iff.1 e
  have hp : polyVal (el f) p ≠ 0 := by
    intro h0
    have h1 := (anf_poly_models (f := f).isZero p).2 h0
    rw [h1] at a1
    cases a1
  refine ⟨hp, ?_⟩
  rw [ratOps_models.pqDegree f (irr_ne f)] at a2
  cases a2
  split at e
  · rename_i h1
    obtain ⟨s1, s2⟩ := reducedRational_spec hrf h1 p hp (by rw [h1, one_mul] at hN; exact hN) F e
    exact ⟨s1, s2, fun h => absurd h1 h⟩
  · obtain ⟨s1, s2, s3, s4⟩ := reducedGeneral_spec hrf rng p hp hN F e
    have hd : F.denote (polyVal (el f)) = (F.factors.map fun g => polyVal (el f) g.1).prod := by
      unfold Factored.denote
      rw [s1, one_mul]
      congr 1
      exact List.map_congr_left fun y hy => by rw [s3 y hy, pow_one]
    refine ⟨s2, ?_, fun _ => ⟨s3, by rw [hd]; exact s4⟩⟩
    rw [hd]
    conv_rhs => rw [← s4]
    exact associated_unit_mul_right _ _ (Polynomial.isUnit_C.2 (isUnit_iff_ne_zero.2 (leadingCoeff_ne_zero.2 hp)))

end
end Verif.Anf
