import Verif.Proofs.YunMath
import Verif.Proofs.PolyGcd
import Verif.Proofs.Factored
import Verif.Spec.PolyFactor

/-!
# Yun's algorithm
-/

namespace Verif.Rings

open Polynomial

section Fac
variable {α R : Type} [CommRing R] {S : FavOps α} {v : α → R}

theorem Factored.pow_valid {f : Factored α} (hf : f.Valid S v) (k : Nat) (hk : 0 < k) : (f.pow k).Valid S v where
  unit := hf.unit
  irreducible p hp := by
    obtain ⟨q, hq, rfl⟩ := List.mem_map.1 hp
    exact hf.irreducible q hq
  fav p hp := by
    obtain ⟨q, hq, rfl⟩ := List.mem_map.1 hp
    exact hf.fav q hq
  pos p hp := by
    obtain ⟨q, hq, rfl⟩ := List.mem_map.1 hp
    exact Nat.mul_pos (hf.pos q hq) hk
  distinct := by
    have : (f.pow k).factors.map (fun p => v p.1) = f.factors.map fun p => v p.1 := by
      simp [Factored.pow, Function.comp_def]
    rw [this]; exact hf.distinct

theorem Factored.pow_denote (f : Factored α) (k : Nat) :
    (f.pow (k + 1)).denote v * v f.unit ^ k = f.denote v ^ (k + 1) := by
  have e : ((f.pow (k + 1)).factors.map fun p => v p.1 ^ p.2).prod = (f.factors.map fun p => v p.1 ^ p.2).prod ^ (k + 1) := by
    simp only [Factored.pow, List.map_map, Function.comp_def, pow_mul]
    generalize f.factors = l
    induction l with
    | nil => simp
    | cons p t ih => simp [ih, mul_pow]
  rw [Factored.denote, e, Factored.denote, Factored.pow, mul_pow, pow_succ (v f.unit)]; ring

theorem Factored.denote_dvd {f : Factored α} {p : α × Nat} (hp : p ∈ f.factors) (h0 : 0 < p.2) : v p.1 ∣ f.denote v := by
  refine Dvd.dvd.mul_left ?_ _
  exact (dvd_pow_self _ (by omega)).trans (List.dvd_prod (List.mem_map.2 ⟨p, hp, rfl⟩))

variable (h : S.Models v)
include h

theorem FavOps.Models.isFav_C {r : R} (hr : S.IsFav v r) : S.poly.IsFav (polyVal v) (C r) := by
  haveI := h.domain
  intro a u w ha e
  by_cases h0 : r = 0
  · subst h0
    have h1 := h.polyFactorFavAssoc_zero a (by rw [ha, C_0])
    have e' : S.polyFactorFavAssoc a = some (u, w) := e
    rw [h1] at e'
    cases e'
    simp
  · obtain ⟨l, u', c, w', l1, l2, l3, l4, l5, l6⟩ := h.polyFactorFavAssoc_ne a (by rw [ha]; simpa using h0)
    have e' : S.polyFactorFavAssoc a = some (u, w) := e
    rw [l5] at e'
    cases e'
    rw [ha, leadingCoeff_C] at l1
    have hc := hr l u' c l1 l2
    have : v u' = 1 := by
      rw [hc, l1] at l4
      exact mul_right_cancel₀ h0 (by rw [one_mul]; exact l4.symm)
    rw [this, C_1, one_mul] at l6
    rw [← l6, ha]

end Fac

section
variable {α R : Type} [CommRing R] [UniqueFactorizationMonoid R] {S : UfdOps α} {v : α → R} (h : S.Models v)
include h

theorem UfdOps.Models.factorUnwrap (a : α) (ha : v a ≠ 0) :
    ∃ f, S.factorUnwrap a = some f ∧ f.Valid S.toFavOps v ∧ f.denote v = v a := by
  obtain ⟨f, h1, h2⟩ := h.factor_ne a ha
  exact ⟨f, by rw [UfdOps.factorUnwrap, h1]; rfl, h2⟩

theorem UfdOps.Models.polyConstFactored {f : Factored α} (hf : f.Valid S.toFavOps v) :
    (Rings.polyConstFactored f).Valid S.toFavOps.poly (polyVal v) ∧ (Rings.polyConstFactored f).denote (polyVal v) = C (f.denote v) := by
  haveI := h.domain
  refine ⟨⟨?_, ?_, ?_, ?_, ?_⟩, ?_⟩
  · rw [Rings.polyConstFactored, polyVal_const]; exact hf.unit.map C
  · intro p hp
    obtain ⟨q, hq, rfl⟩ := List.mem_map.1 hp
    rw [polyVal_const]
    exact UniqueFactorizationMonoid.irreducible_iff_prime.2
      (Polynomial.prime_C_iff.2 (UniqueFactorizationMonoid.irreducible_iff_prime.1 (hf.irreducible q hq)))
  · intro p hp
    obtain ⟨q, hq, rfl⟩ := List.mem_map.1 hp
    rw [polyVal_const]
    exact h.toFav.isFav_C (hf.fav q hq)
  · intro p hp
    obtain ⟨q, hq, rfl⟩ := List.mem_map.1 hp
    exact hf.pos q hq
  · have : (Rings.polyConstFactored f).factors.map (fun p => polyVal v p.1) = (f.factors.map fun p => v p.1).map C := by
      simp [Rings.polyConstFactored, Function.comp_def, polyVal_const]
    rw [this]
    exact hf.distinct.map C_injective
  · simp only [Factored.denote, Rings.polyConstFactored, polyVal_const, C_mul, List.map_map, Function.comp_def]
    congr 1
    generalize f.factors = l
    induction l with
    | nil => simp
    | cons p t ih => simp [ih]

theorem RingOps.Models.yunD_val (b c : List α) : polyVal v (S.yunD b c) = polyVal v c - derivative (polyVal v b) := by
  rw [RingOps.yunD, h.toSemi.polyAdd, h.toRing.polyNeg, h.toSemi.polyDerivative]; ring

/-- the gcd by subresultants is a gcd when one of the arguments is primitive -/
theorem UfdOps.Models.polyGcdPrimSub_prim : IsPrimGcd v S.polyGcdPrimSub := by
  haveI := h.domain
  intro a b ha
  by_cases hb : polyVal v b = 0
  · refine ⟨a, (polyGcdPrimSub_zero h.toGcd a b).2 ha.ne_zero hb, ?_, ?_⟩
    · rintro x (rfl | rfl)
      · exact dvd_rfl
      · rw [hb]; exact dvd_zero _
    · intro d hd
      exact hd _ (by simp)
  · obtain ⟨g, g1, g2, g3⟩ := polyGcdPrimSub_spec (K := FractionRing R) h.toGcd a b ha.ne_zero hb
    refine ⟨g, g1, ?_⟩
    have := h.toGcd.gcd_of_span (K := FractionRing R) (polyVal v a) (polyVal v b) (polyVal v g) 1 g2
      ⟨fun x _ => one_dvd _, fun d hd => (ha d ((C_dvd_iff_dvd_coeff _ _).2 fun i => hd _ ⟨i, Or.inl rfl⟩)).dvd⟩ g3
    rwa [C_1, one_mul] at this

/-- What the loop of Yun's algorithm maintains: the collected factors times what is left is `F`, up to a unit which is one as
long as no power has been taken. -/
structure YunSt (S : UfdOps α) (v : α → R) (F : R[X]) (st : YunState α) (H : R[X]) : Prop where
  inv : YunInv H (polyVal v st.b) (polyVal v st.d)
  pos : 0 < st.i
  f : polyVal v st.f = H * polyVal v st.b ^ st.i
  valid : st.factors.Valid S.toFavOps.poly (polyVal v)
  assoc : ∃ w, IsUnit w ∧ st.factors.denote (polyVal v) * w * polyVal v st.f = F ∧ (st.i ≤ 2 → w = 1)

variable [CharZero R] {pgcd : List α → List α → Option (List α)} {sq : List α → Option (Factored (List α))}
  (hgcd : IsPrimGcd v pgcd) (hsq : FactorsPrimSqfree S v sq)
include hgcd hsq

theorem yunStep_spec (F : R[X]) (st : YunState α) (H : R[X]) (hst : YunSt S v F st H) :
    ∃ st' H', S.yunStep pgcd sq st = some st' ∧ YunSt S v F st' H' ∧ st'.i = st.i + 1 ∧ H = H' * polyVal v st'.b := by
  haveI := h.domain
  have hP := h.toFav.poly
  have hI := hst.inv
  obtain ⟨a, a1, a2⟩ := hgcd st.b st.d hI.primB
  have hab : polyVal v a ∣ polyVal v st.b := a2.1 _ (by simp)
  have had : polyVal v a ∣ polyVal v st.d := a2.1 _ (by simp)
  have hap : (polyVal v a).IsPrimitive := isPrim_of_dvd hI.primB hab
  obtain ⟨fa, f1, f2, f3⟩ := hsq a hap (hI.squarefree.squarefree_of_dvd hab)
  obtain ⟨b, b1, b2⟩ := hP.toDomain.div_unwrap st.b a hap.ne_zero hab
  obtain ⟨c, c1, c2⟩ := hP.toDomain.div_unwrap st.d a hap.ne_zero had
  have hpw : polyVal v (S.toSemiRingOps.poly.natPow a st.i) = polyVal v a ^ st.i := h.toSemi.poly.natPow a st.i
  obtain ⟨f, e1, e2⟩ := hP.toDomain.div_unwrap st.f (S.toSemiRingOps.poly.natPow a st.i)
    (by rw [hpw]; exact pow_ne_zero _ hap.ne_zero) (by rw [hpw, hst.f]; exact (pow_dvd_pow_of_dvd hab _).mul_left _)
  obtain ⟨fs, s1, s2, s3⟩ := Factored.mul_spec hP st.factors (fa.pow st.i) hst.valid.fav
    (Factored.pow_valid f2 st.i hst.pos).fav
  obtain ⟨H', hH, hinv⟩ := hI.step a2 b2 c2
  refine ⟨⟨fs, f, b, S.yunD b c, st.i + 1⟩, H', ?_, ⟨?_, Nat.succ_pos _, ?_, s3 hst.valid (Factored.pow_valid f2 st.i hst.pos), ?_⟩,
    rfl, hH⟩
  · have e1' : unwrapDiv (S.polyDiv st.f (S.toSemiRingOps.poly.natPow a st.i)) = some f := e1
    have b1' : unwrapDiv (S.polyDiv st.b a) = some b := b1
    have c1' : unwrapDiv (S.polyDiv st.d a) = some c := c1
    rw [UfdOps.yunStep]
    simp only [a1, f1, s1, e1', b1', c1', Option.bind_eq_bind, Option.bind_some]
  · show YunInv H' (polyVal v b) (polyVal v (S.yunD b c))
    rw [RingOps.Models.yunD_val h]; exact hinv
  · show polyVal v f = H' * polyVal v b ^ (st.i + 1)
    rw [hpw] at e2
    apply mul_right_cancel₀ (pow_ne_zero st.i hap.ne_zero)
    rw [← e2, hst.f, b2, hH]
    ring
  · obtain ⟨w, w1, w2, w3⟩ := hst.assoc
    have hpd := Factored.pow_denote (v := polyVal v) fa (st.i - 1)
    rw [Nat.sub_add_cancel hst.pos, f3] at hpd
    refine ⟨w * polyVal v fa.unit ^ (st.i - 1), w1.mul (f2.unit.pow _), ?_, ?_⟩
    · rw [← w2, s2, e2, hpw, ← hpd]; ring
    · intro hi
      have hi' : st.i + 1 ≤ 2 := hi
      have h1 : st.i = 1 := by have := hst.pos; omega
      rw [w3 (by omega), h1]; simp

theorem yunLoop_spec (F : R[X]) (st : YunState α) (H : R[X]) (hst : YunSt S v F st H) :
    ∃ st' H', S.yunLoop pgcd sq st = some st' ∧ YunSt S v F st' H' ∧ (polyVal v st'.f).natDegree = 0 ∧
      (st.i = 1 → IsUnit H → st'.i ≤ 2) := by
  haveI := h.domain
  induction hn : (H * polyVal v st.b).natDegree using Nat.strong_induction_on generalizing st H with
  | _ n ih =>
    have hI := hst.inv
    have hf0 : polyVal v st.f ≠ 0 := by
      rw [hst.f]; exact mul_ne_zero hI.H_ne (pow_ne_zero _ hI.b_ne)
    rw [UfdOps.yunLoop, h.toSemi.polyDegree_some _ hf0]
    simp only [Option.bind_eq_bind, Option.bind_some]
    by_cases hd : (polyVal v st.f).natDegree = 0
    · rw [if_neg (by simpa using hd)]
      exact ⟨st, H, rfl, hst, hd, fun e _ => by omega⟩
    · rw [if_pos hd]
      obtain ⟨st', H', s1, s2, s3, s4⟩ := yunStep_spec h hgcd hsq F st H hst
      have hb := hI.natDegree_b_pos st.i (by rw [← hst.f]; omega)
      obtain ⟨st2, H2, t1, t2, t3, t4⟩ := ih (H' * polyVal v st'.b).natDegree (by
        rw [← hn, natDegree_mul hI.H_ne hI.b_ne, ← s4]; omega) st' H' s2 rfl
      refine ⟨st2, H2, by rw [s1]; exact t1, t2, t3, fun e hu => ?_⟩
      -- the loop stops after one turn when `H` is a unit
      have hu' : IsUnit (H' * polyVal v st'.b) := s4 ▸ hu
      have hdeg : (polyVal v st'.f).natDegree = 0 := by
        rw [s2.f]
        exact natDegree_eq_zero_of_isUnit ((isUnit_of_mul_isUnit_left hu').mul ((isUnit_of_mul_isUnit_right hu').pow _))
      have hf0' : polyVal v st'.f ≠ 0 := by
        rw [s2.f]; exact mul_ne_zero s2.inv.H_ne (pow_ne_zero _ s2.inv.b_ne)
      rw [UfdOps.yunLoop, h.toSemi.polyDegree_some _ hf0', hdeg] at t1
      simp only [Option.bind_eq_bind, Option.bind_some, ne_eq, not_true_eq_false, if_false, Option.some.injEq] at t1
      rw [← t1, s3, e]

/-- Yun's algorithm terminates and returns a valid factorization of an associate of its argument; it is a factorization of the
argument itself when the primitive part is squarefree. -/
theorem factorizeYun_spec (f : List α) (hf : polyVal v f ≠ 0) :
    ∃ r, S.factorizeYun pgcd sq f = some r ∧ r.Valid S.toFavOps.poly (polyVal v) ∧
      Associated (r.denote (polyVal v)) (polyVal v f) ∧
      ((∀ g : R[X], g ^ 2 ∣ polyVal v f → g.natDegree = 0) → r.denote (polyVal v) = polyVal v f) := by
  haveI := h.domain
  have hP := h.toFav.poly
  obtain ⟨c, p, p1, p2, -, p4, p5, -⟩ := h.toGcd.polyFactorPrimitiveUnwrap f hf
  obtain ⟨cf, c1, c2, c3⟩ := h.factorUnwrap c p2
  obtain ⟨k1, k2⟩ := h.polyConstFactored c2
  obtain ⟨a, a1, a2⟩ := h.polyGcdPrimSub_prim p (S.polyDerivative p) p5
  have hap : (polyVal v a).IsPrimitive := isPrim_of_dvd p5 (a2.1 _ (by simp))
  obtain ⟨b, b1, b2⟩ := hP.toDomain.div_unwrap p a hap.ne_zero (a2.1 _ (by simp))
  obtain ⟨d, d1, d2⟩ := hP.toDomain.div_unwrap (S.polyDerivative p) a hap.ne_zero (a2.1 _ (by simp))
  rw [h.toSemi.polyDerivative] at a2 d2
  have hinv := yunInv_init p5 a2 b2 d2
  have hst : YunSt S v (polyVal v f) ⟨polyConstFactored cf, p, b, S.yunD b d, 1⟩ (polyVal v a) := by
    refine ⟨?_, Nat.one_pos, ?_, k1, 1, isUnit_one, ?_, fun _ => rfl⟩
    · show YunInv (polyVal v a) (polyVal v b) (polyVal v (S.yunD b d))
      rw [RingOps.Models.yunD_val h]; exact hinv
    · show polyVal v p = polyVal v a * polyVal v b ^ 1
      rw [pow_one, b2, mul_comm]
    · show (polyConstFactored cf).denote (polyVal v) * 1 * polyVal v p = polyVal v f
      rw [k2, c3, p4, mul_one]
  obtain ⟨st, H, s1, s2, s3, s4⟩ := yunLoop_spec h hgcd hsq _ _ _ hst
  have hI := s2.inv
  have hfu : IsUnit (polyVal v st.f) := by
    rw [s2.f] at s3 ⊢
    refine isUnit_of_prim_natDegree ?_ s3
    exact prim_mul hI.primH (prim_pow hI.primB _)
  have hfv : (Factored.factoredUnit st.f).Valid S.toFavOps.poly (polyVal v) :=
    ⟨hfu, by simp [Factored.factoredUnit], by simp [Factored.factoredUnit], by simp [Factored.factoredUnit], by simp [Factored.factoredUnit]⟩
  obtain ⟨r, r1, r2, r3⟩ := Factored.mul_spec hP st.factors (Factored.factoredUnit st.f) s2.valid.fav hfv.fav
  obtain ⟨w, w1, w2, w3⟩ := s2.assoc
  have hr : r.denote (polyVal v) * w = polyVal v f := by
    rw [r2, ← w2]; simp [Factored.denote, Factored.factoredUnit]; ring
  refine ⟨r, ?_, r3 s2.valid hfv, ?_, ?_⟩
  · have hz : S.toSemiRingOps.poly.isZero f = false := (h.toSemi.poly.isZero_false f).2 hf
    have b1' : unwrapDiv (S.polyDiv p a) = some b := b1
    have d1' : unwrapDiv (S.polyDiv (S.polyDerivative p) a) = some d := d1
    rw [UfdOps.factorizeYun]
    simp only [hz, Bool.not_false, assertThat, if_true, p1, c1, UfdOps.yunInit, a1, b1', d1', Option.bind_eq_bind, Option.bind_some, s1]
    exact r1
  · obtain ⟨u, rfl⟩ := w1
    exact ⟨u, hr⟩
  · intro hs
    have hua : IsUnit (polyVal v a) := by
      by_contra hc
      obtain ⟨π, h1, h2⟩ := WfDvdMonoid.exists_irreducible_factor hc hap.ne_zero
      have hp := UniqueFactorizationMonoid.irreducible_iff_prime.1 h1
      have h3 := hinv.radical π hp h2
      have h4 : π ^ 2 ∣ polyVal v f := by
        rw [p4, b2, pow_two]; exact (mul_dvd_mul h3 h2).mul_left _
      have h5 := prime_natDegree_pos hap hp h2
      have h6 := hs π h4
      omega
    have := w3 (s4 rfl hua)
    rw [this, mul_one] at hr
    exact hr

end
end Verif.Rings
