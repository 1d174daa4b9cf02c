import Verif.Proofs.BzLoop
import Verif.Props.FinitePoly
import Verif.Props.Hensel
import Verif.Props.Factored
import Mathlib.Data.ZMod.QuotientRing

/-!
# The modular stage of the Berlekamp–Zassenhaus algorithm
-/

namespace Verif.Rings

open Polynomial

/-! ## The factors have reduced coefficients -/

section
variable {β : Type} {S : FavOps β} {Q : β → Prop}

/-- all factors have the property -/
def Factored.AllF (Q : β → Prop) (f : Factored β) : Prop := ∀ q ∈ f.factors, Q q.1

theorem mulByLoop_allF (p : β) (hp : Q p) (k : Nat) (u : β) (l : List (β × Nat)) (hl : ∀ q ∈ l, Q q.1) (r : β × List (β × Nat))
    (e : Factored.mulByLoop S p k u l = some r) : ∀ q ∈ r.2, Q q.1 := by
  induction l generalizing r with
  | nil => rw [Factored.mulByLoop] at e; cases e; simpa using hp
  | cons a l ih =>
    obtain ⟨q, t⟩ := a
    rw [Factored.mulByLoop, Option.bind_eq_some_iff] at e
    obtain ⟨c, -, e⟩ := e
    cases c with
    | some v =>
      cases e
      intro x hx
      rcases List.mem_cons.1 hx with rfl | hx
      · exact hl (q, t) (by simp)
      · exact hl x (by simp [hx])
    | none =>
      simp only [Option.map_eq_some_iff] at e
      obtain ⟨r', e1, rfl⟩ := e
      intro x hx
      rcases List.mem_cons.1 hx with rfl | hx
      · exact hl (q, t) (by simp)
      · exact ih (fun y hy => hl y (by simp [hy])) r' e1 x hx

theorem mul_allF (a b r : Factored β) (ha : a.AllF Q) (hb : b.AllF Q) (e : Factored.mul S a b = some r) : r.AllF Q := by
  have key : ∀ (l : List (β × Nat)) (a : Factored β), (∀ q ∈ l, Q q.1) → a.AllF Q →
      l.foldlM (fun f p => Factored.mulByUnchecked S f p.1 p.2) a = some r → r.AllF Q := by
    intro l
    induction l with
    | nil => intro a _ ha e; cases e; exact ha
    | cons x l ih =>
      intro a hl ha e
      rw [List.foldlM_cons, Option.bind_eq_bind, Option.bind_eq_some_iff] at e
      obtain ⟨a', e1, e2⟩ := e
      refine ih a' (fun q hq => hl q (by simp [hq])) ?_ e2
      rw [Factored.mulByUnchecked, Option.map_eq_some_iff] at e1
      obtain ⟨r', e3, rfl⟩ := e1
      exact mulByLoop_allF _ (hl x (by simp)) _ _ _ ha r' e3
  exact key b.factors ⟨S.mul a.unit b.unit, a.factors⟩ hb (fun q hq => ha q hq) e

theorem pow_allF (a : Factored β) (ha : a.AllF Q) (k : Nat) : (a.pow k).AllF Q := by
  intro q hq
  simp only [Factored.pow, List.mem_map] at hq
  obtain ⟨q', h1, rfl⟩ := hq
  exact ha q' h1

end

section
variable {α : Type} {F : FinFieldOps α} {Q : List α → Prop} (hQ : ∀ e u w, F.P.factorFavAssoc e = some (u, w) → Q w)
include hQ

theorem czCollect_allF (d mult : Nat) (l : List (List α)) (fs : Factored (List α)) (hfs : fs.AllF Q) (r : Factored (List α) × List (List α))
    (e : F.czCollect d mult l fs = some r) : r.1.AllF Q := by
  induction l generalizing fs r with
  | nil => rw [FinFieldOps.czCollect] at e; cases e; exact hfs
  | cons u l ih =>
    rw [FinFieldOps.czCollect, Option.bind_eq_bind, Option.bind_eq_some_iff] at e
    obtain ⟨du, -, e⟩ := e
    split at e
    · simp only [Option.bind_eq_bind, Option.bind_eq_some_iff] at e
      obtain ⟨irr, e1, fs', e2, e3⟩ := e
      refine ih fs' (mul_allF (S := F.P.toFavOps) _ _ _ hfs (pow_allF _ ?_ _) e2) _ e3
      rw [Factored.factoredIrreducible, Option.map_eq_some_iff] at e1
      obtain ⟨⟨a, b⟩, e4, rfl⟩ := e1
      intro q hq
      simp only [List.mem_cons, List.not_mem_nil, or_false] at hq
      subst hq
      exact hQ _ _ _ e4
    · rw [Option.map_eq_some_iff] at e
      obtain ⟨r', e1, rfl⟩ := e
      exact ih fs hfs r' e1

theorem czLoop_allF (rand : Nat → α) (poly : List α) (n d mult : Nat) (l : List (List α)) (pos : Nat) (fs r : Factored (List α))
    (e : F.czLoop rand poly n d mult l pos fs = some r) (hfs : fs.AllF Q) : r.AllF Q := by
  refine FinFieldOps.czLoop.partial_correctness F rand poly n d mult (motive := fun l _ fs r => fs.AllF Q → r.AllF Q) ?_ l pos fs r e hfs
  intro loop ih l pos fs r hr hfs
  rw [Option.bind_eq_bind, Option.bind_eq_some_iff] at hr
  obtain ⟨x, e1, hr⟩ := hr
  have hx := czCollect_allF hQ d mult l fs hfs x e1
  split at hr
  · cases hr; exact hx
  · rw [Option.bind_eq_bind, Option.bind_eq_some_iff] at hr
    obtain ⟨y, -, hr⟩ := hr
    exact ih _ _ _ _ hr hx

theorem polyFactor_allF (rand : Nat → α) (p : List α) (r : Factored (List α)) (e : F.polyFactor rand p = some (some r)) : r.AllF Q := by
  rw [FinFieldOps.polyFactor, Option.bind_eq_some_iff] at e
  obtain ⟨m, -, e⟩ := e
  cases m with
  | none => cases e
  | some m =>
    simp only [Option.map_eq_some_iff, Option.some.injEq] at e
    obtain ⟨r', e, rfl⟩ := e
    rw [FinFieldOps.factorSteps] at e
    simp only [Option.bind_eq_bind, Option.bind_eq_some_iff] at e
    obtain ⟨s, -, d, -, e⟩ := e
    rw [FinFieldOps.factorizeCz] at e
    have key : ∀ (l : List ((Nat × List α) × Nat)) (a : Factored (List α)), a.AllF Q → l.foldlM (F.czEntry rand) a = some r' → r'.AllF Q := by
      intro l
      induction l with
      | nil => intro a ha e; cases e; exact ha
      | cons x l ih =>
        intro a ha e
        rw [List.foldlM_cons, Option.bind_eq_bind, Option.bind_eq_some_iff] at e
        obtain ⟨a', e1, e2⟩ := e
        refine ih a' ?_ e2
        rw [FinFieldOps.czEntry] at e1
        simp only [Option.bind_eq_bind, Option.bind_eq_some_iff] at e1
        obtain ⟨n, -, _, -, e1⟩ := e1
        exact czLoop_allF hQ _ _ _ _ _ _ _ _ _ e1 ha
    exact key _ _ (by intro q hq; simp [Factored.factoredUnit] at hq) e

end

theorem reduce_range (m : ℤ) (hm : 0 < m) (a : ℤ) : 0 ≤ intOps.reduce m a ∧ intOps.reduce m a < m := by
  have hz : intOps.isZero m = false := (intOps_models.toSemi.isZero_false m).2 hm.ne'
  have h1 : intOps.reduce m a = a % m := by
    rw [EucOps.reduce, EucOps.rem, hz]
    simp only [Bool.false_eq_true, if_false]
    change ((some (intQuorem a m)).bind _).getD _ = _
    simp [intQuorem, hm.ne', Int.fmod_eq_emod_of_nonneg a hm.le]
  rw [h1]
  exact ⟨Int.emod_nonneg a hm.ne', Int.emod_lt_of_pos a hm⟩

/-- the coefficients of a favourite associate modulo `m` are reduced -/
theorem intMod_fav_range (m : ℤ) (hm : 0 < m) (e u w : List ℤ) (h : (intModOps m).P.factorFavAssoc e = some (u, w)) :
    ∀ c ∈ w, 0 ≤ c ∧ c < m := by
  change (intOps.quotientField m).fieldFav.polyFactorFavAssoc e = some (u, w) at h
  rw [FavOps.polyFactorFavAssoc] at h
  split at h
  · cases h; simp
  · simp only [Option.bind_eq_bind, Option.bind_eq_some_iff] at h
    obtain ⟨uc, -, a', h1, h2⟩ := h
    cases h2
    rw [DomainOps.polyDivCoeffs] at h1
    intro c hc
    obtain ⟨x, hx⟩ : ∃ x, unwrapDiv ((intOps.quotientField m).div x uc.1) = some c := by
      clear * - h1 hc
      induction e generalizing w with
      | nil => simp at h1; subst h1; simp at hc
      | cons a e ih =>
        rw [List.mapM_cons] at h1
        simp only [Option.bind_eq_bind, Option.bind_eq_some_iff] at h1
        obtain ⟨y, h2, ys, h3, h4⟩ := h1
        cases h4
        rcases List.mem_cons.1 hc with rfl | hc
        · exact ⟨a, h2⟩
        · exact ih ys h3 hc
    change unwrapDiv (intOps.quotientDiv m x uc.1) = some c at hx
    rw [EucOps.quotientDiv] at hx
    split at hx
    · cases hx
    · have key : ∀ r, intOps.quotientDivNonzero m x uc.1 = r → unwrapDiv r = some c → 0 ≤ c ∧ c < m := by
        intro r hr hx
        cases r with
        | none => cases hx
        | some r =>
          cases r with
          | error _ => cases hx
          | ok d =>
            cases hx
            rw [EucOps.quotientDivNonzero] at hr
            simp only [Option.bind_eq_bind, Option.bind_eq_some_iff] at hr
            obtain ⟨t, -, _, -, r, -, hr⟩ := hr
            cases r with
            | error e => cases e <;> cases hr
            | ok d => cases hr; exact reduce_range m hm _
      exact key _ rfl hx


/-- polynomials with reduced coefficients that are monic modulo `m` are monic -/
theorem monic_of_range (m : ℤ) (w : List ℤ) (hr : ∀ c ∈ w, 0 ≤ c ∧ c < m)
    (hm : (polyVal (fun a : ℤ => (a : ZMod m.natAbs)) w).Monic) (h1 : Fact m.natAbs.Prime) (hm0 : 0 < m) : (polyVal (id : Int → Int) w).Monic := by
  have e : polyVal (fun a : ℤ => (a : ZMod m.natAbs)) w = (polyVal (id : Int → Int) w).map (Int.castRingHom (ZMod m.natAbs)) :=
    polyVal_comp (Int.castRingHom (ZMod m.natAbs)) (id : Int → Int) w
  have hw0 : polyVal (id : Int → Int) w ≠ 0 := by
    intro h0
    rw [e, h0, Polynomial.map_zero] at hm
    exact hm.ne_zero rfl
  have hc : (polyVal (id : Int → Int) w).leadingCoeff ∈ w := by
    rw [leadingCoeff]
    have hlt : (polyVal (id : Int → Int) w).natDegree < w.length := by
      by_contra hge
      exact leadingCoeff_ne_zero.2 hw0 (coeff_polyVal_ge (id : Int → Int) w _ (by omega))
    rw [coeff_polyVal_lt (id : Int → Int) w _ hlt]
    exact List.getElem_mem hlt
  obtain ⟨c1, c2⟩ := hr _ hc
  have hne : Int.castRingHom (ZMod m.natAbs) (polyVal (id : Int → Int) w).leadingCoeff ≠ 0 := by
    intro h0
    have := (ZMod.intCast_zmod_eq_zero_iff_dvd _ _).1 h0
    rw [Int.natAbs_dvd] at this
    have h2 := Int.eq_zero_of_dvd_of_nonneg_of_lt c1 c2 this
    exact leadingCoeff_ne_zero.2 hw0 h2
  have hl : (polyVal (fun a : ℤ => (a : ZMod m.natAbs)) w).leadingCoeff = ((polyVal (id : Int → Int) w).leadingCoeff : ZMod m.natAbs) := by
    rw [e, leadingCoeff_map_of_leadingCoeff_ne_zero _ hne]; rfl
  rw [hm.leadingCoeff, ← Int.cast_one, eq_comm, ZMod.intCast_eq_intCast_iff_dvd_sub, Int.natAbs_dvd] at hl
  have h1p : 1 < m := by
    have := h1.out.one_lt
    omega
  obtain ⟨k, hk⟩ := hl
  have hk0 : k = 0 := by
    have h3 : m * k < m * 1 := by rw [← hk]; omega
    have h4 : m * (-1) < m * k := by rw [← hk]; omega
    have := lt_of_mul_lt_mul_left h3 hm0.le
    have := lt_of_mul_lt_mul_left h4 hm0.le
    omega
  rw [hk0] at hk
  rw [Monic]; omega

/-- a valid factorization in an isomorphic ring -/
theorem Factored.Valid.equiv {β R R' : Type} [CommRing R] [CommRing R'] {S : FavOps β} {v : β → R} {v' : β → R'} (ψ : R ≃+* R')
    (hv : ∀ a, v' a = ψ (v a)) {f : Factored β} (h : f.Valid S v) : f.Valid S v' where
  unit := by rw [hv]; exact h.unit.map ψ
  irreducible := fun p hp => by rw [hv]; exact (MulEquiv.irreducible_iff ψ).2 (h.irreducible p hp)
  fav := fun p hp a u w e1 e2 => by
    rw [hv, hv, ψ.injective.eq_iff] at e1
    rw [hv, hv, h.fav p hp a u w e1 e2]
  pos := h.pos
  distinct := by
    have : (f.factors.map fun p => v' p.1) = (f.factors.map fun p => v p.1).map ψ := by simp [hv]
    rw [this]
    exact h.distinct.map ψ.injective

theorem Factored.denote_equiv {β R R' : Type} [CommRing R] [CommRing R'] {v : β → R} {v' : β → R'} (ψ : R ≃+* R')
    (hv : ∀ a, v' a = ψ (v a)) (f : Factored β) : f.denote v' = ψ (f.denote v) := by
  simp only [Factored.denote, hv, map_mul, map_list_prod, List.map_map]
  congr 3
  funext p
  simp

theorem irreducible_prime_of_field {K : Type} [CommRing K] (hK : IsField K) {A : K[X]} (hA : Irreducible A) : Prime A := by
  letI : Field K := hK.toField
  have hA' : Irreducible (M := K[X]) A := hA
  exact hA'.prime

/-- a modular factorization given by a list -/
theorem modFact_of_list {p : ℤ} {t : ℕ} {F : ℤ[X]} {fs : List (List ℤ)} (hp : Prime p) (ht : 0 < t)
    (hm : ∀ x ∈ fs, (polyVal (id : Int → Int) x).Monic) (hi : ∀ x ∈ fs, Prime (redMod p (polyVal (id : Int → Int) x)))
    (hc : fs.Pairwise fun x y => CoprimeMod p (polyVal (id : Int → Int) x) (polyVal (id : Int → Int) y))
    (hlc : ¬ p ∣ F.leadingCoeff) (hcong : CongMod (p ^ t) F (C F.leadingCoeff * (fs.map (polyVal (id : Int → Int))).prod)) :
    ModFact p t F (Finset.range fs.length) (fun i => polyVal (id : Int → Int) (fs.getD i [])) := by
  have hget : ∀ i ∈ Finset.range fs.length, fs.getD i [] ∈ fs := by
    intro i hi
    rw [Finset.mem_range] at hi
    rw [List.getD_eq_getElem _ _ hi]
    exact List.getElem_mem hi
  refine ⟨hp, ht, fun i hi' => hm _ (hget i hi'), fun i hi' => hi _ (hget i hi'), ?_, hlc, ?_⟩
  · intro i hi' j hj' hij
    rw [Finset.mem_range] at hi' hj'
    rw [List.getD_eq_getElem _ _ hi', List.getD_eq_getElem _ _ hj']
    rcases lt_or_gt_of_ne hij with hlt | hlt
    · exact List.pairwise_iff_getElem.1 hc i j hi' hj' hlt
    · obtain ⟨U, W, hUW⟩ := List.pairwise_iff_getElem.1 hc j i hj' hi' hlt
      exact ⟨W, U, by rw [add_comm]; exact hUW⟩
  · have : ∏ i ∈ Finset.range fs.length, polyVal (id : Int → Int) (fs.getD i []) = (fs.map (polyVal (id : Int → Int))).prod := by
      clear * -
      rw [Finset.prod_range]
      rw [← List.prod_ofFn]
      congr 1
      refine List.ext_getElem (by simp) ?_
      intro i h1 h2
      simp at h1
      simp [List.getD_eq_getElem, h1]
    rw [this]; exact hcong

/-- the lifting loop ends -/
theorem bzLift_spec (M : ℕ) (t : HenselFact ℤ) (ht : t.Valid (id : Int → Int) false) (hr : RemOne intOps (id : Int → Int) t.i) (h1 : 1 < t.i) :
    ∃ t', bzLift M t = some t' ∧ t'.Valid (id : Int → Int) false ∧ t'.i = t.i ∧ t'.h = t.h ∧ (M : ℤ) ≤ intOps.henselModulus t' ∧
      List.Forall₂ (fun x y => CongMod t.i (polyVal (id : Int → Int) x) (polyVal id y)) t'.factors t.factors ∧
      (t'.prod = .leaf ↔ t.prod = .leaf) := by
  have hmod : ∀ t : HenselFact ℤ, intOps.henselModulus t = t.i ^ t.n := fun t => intOps_models.toSemi.natPow _ _
  obtain ⟨k, hk⟩ : ∃ k, M ≤ t.n + k := ⟨M, by omega⟩
  induction k generalizing t with
  | zero =>
    have hle : (M : ℤ) ≤ intOps.henselModulus t := by
      rw [hmod]
      have h2 : t.n < t.i.natAbs ^ t.n := Nat.lt_pow_self (by omega)
      have h3 : ((t.i.natAbs ^ t.n : ℕ) : ℤ) = t.i ^ t.n := by
        push_cast; rw [abs_of_pos (by omega)]
      omega
    rw [bzLift, if_neg (by omega)]
    exact ⟨t, rfl, ht, rfl, rfl, hle, forall₂_cong_refl _ _, Iff.rfl⟩
  | succ k ih =>
    by_cases hlt : intOps.henselModulus t < (M : ℤ)
    · obtain ⟨t1, a1, a2, a3, a4, a5, a6, a7⟩ := intOps_models.henselLinearLift t ht hr
      obtain ⟨t2, b1, b2, b3, b4, b5, b6, b7⟩ := ih t1 a2 (a3 ▸ hr) (a3 ▸ h1) (by omega)
      rw [bzLift, if_pos hlt, a1]
      rw [a3] at b6
      refine ⟨t2, b1, b2, b3.trans a3, b4.trans a5, b5, ?_, b7.trans a7⟩
      exact forall₂_cong_trans b6 (a6.imp fun x y hxy => hxy.mono (dvd_pow_self _ ht.pos.ne'))
    · rw [bzLift, if_neg hlt]
      exact ⟨t, rfl, ht, rfl, rfl, by omega, forall₂_cong_refl _ _, Iff.rfl⟩

/-- What the modular stage gives. -/
structure ModStage (L : List ℤ) (M : ℕ) (p : ℤ) (t : HenselFact ℤ) (fs : List (List ℤ)) : Prop where
  valid : t.Valid (id : Int → Int) false
  i : t.i = p
  h : t.h = L
  big : (M : ℤ) ≤ p ^ t.n
  pos : 0 < t.n
  mf : ModFact p 1 (polyVal (id : Int → Int) L) (Finset.range fs.length) (fun i => polyVal (id : Int → Int) (fs.getD i []))
  leaf : fs.length = 1 ↔ t.prod = .leaf
  mf' : 2 ≤ fs.length → t.factors.length = fs.length ∧
    ModFact p t.n (polyVal (id : Int → Int) L) (Finset.range t.factors.length) (fun i => polyVal (id : Int → Int) (t.factors.getD i []))

theorem bzModular_spec (factor : Int → Option (Option (Factored Int))) (rand : Nat → Int) (L : List Int) (M : Nat) (p : Nat) (hp : p.Prime)
    (hf : isIrreducibleBy factor p = some true) (hr : FairStream (fun a : Int => (a : ZMod (p : ℤ).natAbs)) rand)
    (hlc : ¬ (p : ℤ) ∣ (polyVal (id : Int → Int) L).leadingCoeff) (hd : 0 < (polyVal (id : Int → Int) L).natDegree) :
    (bzModular factor rand L M p = some none ∧ ¬ Squarefree (redMod p (polyVal (id : Int → Int) L))) ∨
    ∃ t fs, bzModular factor rand L M p = some (some t) ∧ ModStage L M p t fs := by
  haveI hfact : Fact (p : ℤ).natAbs.Prime := ⟨by simpa using hp⟩
  have hprime : Prime (p : ℤ) := Nat.prime_iff_prime_int.1 hp
  have hirr : Irreducible (id (p : ℤ)) := hprime.irreducible
  set F := polyVal (id : Int → Int) L with hF
  let ψ : ZMod (p : ℤ).natAbs ≃+* ℤ ⧸ Ideal.span {(p : ℤ)} := (Int.quotientSpanEquivZMod (p : ℤ)).symm
  have hψ : ∀ a : ℤ, ψ (a : ZMod (p : ℤ).natAbs) = Ideal.Quotient.mk (Ideal.span {(p : ℤ)}) a := fun a => by
    rw [show ((a : ℤ) : ZMod (p : ℤ).natAbs) = Int.castRingHom _ a from rfl, ← Int.quotientSpanEquivZMod_comp_Quotient_mk (p : ℤ)]
    simp [ψ]
  have hval : ∀ w : List ℤ, (polyVal (id : Int → Int) w).map (Ideal.Quotient.mk (Ideal.span {(p : ℤ)})) =
      Polynomial.mapEquiv ψ (polyVal (fun a : ℤ => (a : ZMod (p : ℤ).natAbs)) w) := by
    intro w
    rw [Polynomial.mapEquiv_apply]
    refine (polyVal_comp (Ideal.Quotient.mk (Ideal.span {(p : ℤ)})) (id : Int → Int) w).symm.trans ?_
    have h1 := polyVal_comp (ψ : ZMod (p : ℤ).natAbs →+* ℤ ⧸ Ideal.span {(p : ℤ)}) (fun a : ℤ => (a : ZMod (p : ℤ).natAbs)) w
    refine Eq.trans ?_ h1
    congr 1
    funext a
    exact (hψ a).symm
  have hm := intModOps_models p hfact
  obtain ⟨-, c2, c3⟩ := C86_factor_prime_field hm rfl rand L
  have hFp : polyVal (fun a : ℤ => (a : ZMod (p : ℤ).natAbs)) L ≠ 0 := by
    intro h0
    have h1 := hval L
    rw [h0, map_zero] at h1
    have h2 := congrArg (fun q => coeff q F.natDegree) h1
    simp only [coeff_map, coeff_zero] at h2
    rw [Ideal.Quotient.eq_zero_iff_mem, Ideal.mem_span_singleton] at h2
    exact hlc h2
  obtain ⟨r, hr⟩ := c3 hr
  obtain ⟨fac, rfl, v1, v2⟩ := c2 hFp r hr
  have hmon : ∀ f ∈ fac.factors, (polyVal (id : Int → Int) f.1).Monic := by
    intro f hf'
    refine monic_of_range p f.1 ?_ ?_ hfact (by exact_mod_cast hp.pos)
    · exact polyFactor_allF (Q := fun w => ∀ c ∈ w, 0 ≤ c ∧ c < (p : ℤ)) (intMod_fav_range p (by exact_mod_cast hp.pos)) rand L fac hr f hf'
    · exact hm.isFav_monic (v1.irreducible f hf').ne_zero (v1.fav f hf')
  have hv := v1.equiv (Polynomial.mapEquiv ψ) hval
  have he := (Factored.denote_equiv (Polynomial.mapEquiv ψ) hval fac).trans ((congrArg _ v2).trans (hval L).symm)
  obtain ⟨i1, i2⟩ := intOps_models.intoHensel factor p hirr hf (remOne_int p (by exact_mod_cast hp.one_lt)) L hlc hd fac hv he hmon
  by_cases hsq : ∀ f ∈ fac.factors, f.2 = 1
  · right
    obtain ⟨t, t1, t2, t3, t4, t5, t6, t7⟩ := i2 hsq
    obtain ⟨t', b1, b2, b3, b4, b5, b6, b7⟩ := bzLift_spec M t.dontLift (C94_dont_lift (S := intOps) t t5).1
      (by rw [show t.dontLift.i = p from t2]; exact remOne_int p (by exact_mod_cast hp.one_lt))
      (by rw [show t.dontLift.i = p from t2]; exact_mod_cast hp.one_lt)
    rw [show t.dontLift.i = p from t2] at b3 b6
    have hmod : intOps.henselModulus t' = t'.i ^ t'.n := intOps_models.toSemi.natPow _ _
    rw [hmod, b3] at b5
    have hK := (intOps_models.quotientField p hirr).2
    haveI : IsDomain (ℤ ⧸ Ideal.span {(p : ℤ)}) := hK.isDomain
    have hpi : ∀ f ∈ fac.factors, Prime (redMod p (polyVal (id : Int → Int) f.1)) := by
      intro f hf'
      exact irreducible_prime_of_field hK (hv.irreducible f hf')
    have hco : (fac.factors.map (·.1)).Pairwise fun x y => CoprimeMod (p : ℤ) (polyVal (id : Int → Int) x) (polyVal (id : Int → Int) y) := by
      rw [List.pairwise_map]
      have hdis := hv.distinct
      rw [List.Nodup, List.pairwise_map] at hdis
      refine hdis.imp_of_mem ?_
      intro a b ha hb hne
      rw [CoprimeMod.iff]
      exact isCoprime_of_monic_irreducible hK (hv.irreducible a ha) (hv.irreducible b hb) ((hmon a ha).map _) ((hmon b hb).map _) hne
    have hcong : CongMod ((p : ℤ) ^ 1) F (C F.leadingCoeff * ((fac.factors.map (·.1)).map (polyVal (id : Int → Int))).prod) := by
      have hlc' : Ideal.Quotient.mk (Ideal.span {(p : ℤ)}) F.leadingCoeff ≠ 0 := by
        rw [Ne, Ideal.Quotient.eq_zero_iff_mem, Ideal.mem_span_singleton]; exact hlc
      have hprod : (fac.factors.map fun q => (fun L => (polyVal (id : Int → Int) L).map (Ideal.Quotient.mk (Ideal.span {(p : ℤ)}))) q.1 ^ q.2).prod
          = (((fac.factors.map (·.1)).map (polyVal (id : Int → Int))).prod).map (Ideal.Quotient.mk (Ideal.span {(p : ℤ)})) := by
        rw [Polynomial.map_list_prod, List.map_map, List.map_map]
        congr 1
        refine List.map_congr_left fun x hx => ?_
        simp [hsq x hx]
      have hPm : (((fac.factors.map (·.1)).map (polyVal (id : Int → Int))).prod).Monic := by
        refine monic_list_prod ?_
        simp only [List.forall_mem_map]
        exact hmon
      rw [pow_one, ← map_mk_eq_iff]
      have he' := he
      rw [Factored.denote, hprod] at he'
      obtain ⟨u, hu1, hu2⟩ := Polynomial.isUnit_iff.1 hv.unit
      rw [← hu2] at he'
      have := congrArg leadingCoeff he'
      rw [leadingCoeff_mul, leadingCoeff_C, (hPm.map _).leadingCoeff, mul_one, leadingCoeff_map_of_leadingCoeff_ne_zero _ hlc'] at this
      rw [← he', this, Polynomial.map_mul, map_C]
    refine ⟨t', fac.factors.map (·.1), ?_, b2, b3, b4.trans t4, b5, b2.pos, ?_, ?_, ?_⟩
    · unfold bzModular
      simp only [hr, t1, b1, Option.bind_eq_bind, Option.bind_some, Option.map_some]
    · exact modFact_of_list hprime one_pos (by simpa using fun a b hab => hmon (a, b) hab)
        (by simpa using fun a b hab => hpi (a, b) hab) hco hlc hcong
    · rw [List.length_map, t7, b7]; rfl
    · intro h2
      rw [List.length_map] at h2
      have hfa : List.Forall₂ (fun x y => CongMod (p : ℤ) (polyVal (id : Int → Int) x) (polyVal id y)) t'.factors (fac.factors.map (·.1)) :=
        forall₂_cong_trans b6 (t6 (Or.inl h2))
      have hnl : t'.prod ≠ .leaf := by
        intro hl
        have := t7.2 (b7.1 hl)
        omega
      obtain ⟨d1, d2⟩ := intOps_models.hensel_factors false t' b2 hnl
      refine ⟨hfa.length_eq, modFact_of_list hprime b2.pos (fun x hx => (d1 x hx).1) ?_ ?_ hlc ?_⟩
      · intro x hx
        obtain ⟨y, hy, hxy⟩ : ∃ y ∈ fac.factors.map (·.1), CongMod (p : ℤ) (polyVal (id : Int → Int) x) (polyVal id y) := by
          clear * - hfa hx
          generalize t'.factors = l1 at hfa hx
          generalize fac.factors.map (·.1) = l2 at hfa
          induction hfa with
          | nil => simp at hx
          | cons h1 _ ih =>
            rcases List.mem_cons.1 hx with rfl | hx
            · exact ⟨_, by simp, h1⟩
            · obtain ⟨y, h2, h3⟩ := ih hx
              exact ⟨y, by simp [h2], h3⟩
        rw [redMod, (map_mk_eq_iff _ _ _).2 hxy]
        obtain ⟨f, hf', rfl⟩ := List.mem_map.1 hy
        exact hpi f hf'
      · clear * - hfa hco
        rw [List.pairwise_iff_getElem] at hco ⊢
        intro i j hi hj hij
        rw [List.forall₂_iff_get] at hfa
        have hli := hfa.1
        exact (hco i j (by omega) (by omega) hij).congr (hfa.2 i hi (by omega)).symm (hfa.2 j hj (by omega)).symm
      · have := d2
        rw [hmod, b3, b4, show t.dontLift.h = L from t4] at this
        exact this
  · left
    push Not at hsq
    obtain ⟨f, f1, f2⟩ := hsq
    refine ⟨?_, ?_⟩
    · unfold bzModular
      simp only [hr, i1 ⟨f, f1, f2⟩, Option.bind_eq_bind, Option.bind_some]
    · intro hs
      have hf2 : 2 ≤ f.2 := by have := hv.pos f f1; omega
      have hdv : (fun L => (polyVal (id : Int → Int) L).map (Ideal.Quotient.mk (Ideal.span {(p : ℤ)}))) f.1 ^ f.2 ∣
          redMod p F := by
        rw [redMod, hF, ← he, Factored.denote]
        exact Dvd.dvd.mul_left (List.dvd_prod (List.mem_map.2 ⟨f, f1, rfl⟩)) _
      refine (hv.irreducible f f1).not_isUnit (hs _ ?_)
      rw [← pow_two]
      exact (pow_dvd_pow _ hf2).trans hdv

end Verif.Rings
