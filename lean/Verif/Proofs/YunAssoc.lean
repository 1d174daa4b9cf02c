import Verif.Proofs.Yun

/-!
# Yun's algorithm with a squarefree step that is right up to a unit
-/

namespace Verif.Rings

open Polynomial

section
variable {α R : Type} [CommRing R] [UniqueFactorizationMonoid R] {S : UfdOps α} {v : α → R} (h : S.Models v)
include h

/-- `sq` factors, up to a unit, the primitive squarefree polynomials of degree at most `D`. -/
def SqfreeUpTo {α R : Type} [CommRing R] (S : UfdOps α) (v : α → R) (D : ℕ) (sq : List α → Option (Factored (List α))) : Prop :=
  ∀ a, (polyVal v a).IsPrimitive → Squarefree (polyVal v a) → (polyVal v a).natDegree ≤ D →
    ∃ fa, sq a = some fa ∧ fa.Valid S.toFavOps.poly (polyVal v) ∧ Associated (fa.denote (polyVal v)) (polyVal v a)

/-- What the loop of Yun's algorithm maintains: the collected factors times what is left is `F`, up to a unit. -/
structure YunStA (S : UfdOps α) (v : α → R) (F : R[X]) (st : YunState α) (H : R[X]) : Prop where
  inv : YunInv H (polyVal v st.b) (polyVal v st.d)
  pos : 0 < st.i
  f : polyVal v st.f = H * polyVal v st.b ^ st.i
  valid : st.factors.Valid S.toFavOps.poly (polyVal v)
  assoc : ∃ w, IsUnit w ∧ st.factors.denote (polyVal v) * w * polyVal v st.f = F

variable [CharZero R] {pgcd : List α → List α → Option (List α)} {sq : List α → Option (Factored (List α))} {D : ℕ}
  (hgcd : IsPrimGcd v pgcd) (hsq : SqfreeUpTo S v D sq)
include hgcd hsq

theorem yunStep_assoc (F : R[X]) (hF : F ≠ 0) (hD : F.natDegree ≤ D) (st : YunState α) (H : R[X]) (hst : YunStA S v F st H) :
    ∃ st' H', S.yunStep pgcd sq st = some st' ∧ YunStA S v F st' H' ∧ st'.i = st.i + 1 ∧ H = H' * polyVal v st'.b := by
  haveI := h.domain
  have hP := h.toFav.poly
  have hI := hst.inv
  obtain ⟨a, a1, a2⟩ := hgcd st.b st.d hI.primB
  have hab : polyVal v a ∣ polyVal v st.b := a2.1 _ (by simp)
  have had : polyVal v a ∣ polyVal v st.d := a2.1 _ (by simp)
  have hap : (polyVal v a).IsPrimitive := isPrim_of_dvd hI.primB hab
  have hdeg : (polyVal v a).natDegree ≤ D := by
    obtain ⟨w, -, w2⟩ := hst.assoc
    have hd : polyVal v a ∣ F := by
      rw [← w2, hst.f]
      exact ((hab.trans (dvd_pow_self _ hst.pos.ne')).mul_left _).mul_left _
    exact (natDegree_le_of_dvd hd hF).trans hD
  obtain ⟨fa, f1, f2, f3⟩ := hsq a hap (hI.squarefree.squarefree_of_dvd hab) hdeg
  obtain ⟨b, b1, b2⟩ := hP.toDomain.div_unwrap st.b a hap.ne_zero hab
  obtain ⟨c, c1, c2⟩ := hP.toDomain.div_unwrap st.d a hap.ne_zero had
  have hpw : polyVal v (S.toSemiRingOps.poly.natPow a st.i) = polyVal v a ^ st.i := h.toSemi.poly.natPow a st.i
  obtain ⟨f, e1, e2⟩ := hP.toDomain.div_unwrap st.f (S.toSemiRingOps.poly.natPow a st.i)
    (by rw [hpw]; exact pow_ne_zero _ hap.ne_zero) (by rw [hpw, hst.f]; exact (pow_dvd_pow_of_dvd hab _).mul_left _)
  obtain ⟨fs, s1, s2, s3⟩ := Factored.mul_spec hP st.factors (fa.pow st.i) hst.valid.fav
    (Factored.pow_valid f2 st.i hst.pos).fav
  obtain ⟨H', hH, hinv⟩ := hI.step a2 b2 c2
  refine ⟨⟨fs, f, b, S.yunD b c, st.i + 1⟩, H', ?_, ⟨?_, Nat.succ_pos _, ?_, s3 hst.valid (Factored.pow_valid f2 st.i hst.pos), ?_⟩,
    rfl, hH⟩
  · have e1' : unwrapDiv (S.polyDiv st.f (S.toSemiRingOps.poly.natPow a st.i)) = some f := e1
    have b1' : unwrapDiv (S.polyDiv st.b a) = some b := b1
    have c1' : unwrapDiv (S.polyDiv st.d a) = some c := c1
    rw [UfdOps.yunStep]
    simp only [a1, f1, s1, e1', b1', c1', Option.bind_eq_bind, Option.bind_some]
  · show YunInv H' (polyVal v b) (polyVal v (S.yunD b c))
    rw [RingOps.Models.yunD_val h]; exact hinv
  · show polyVal v f = H' * polyVal v b ^ (st.i + 1)
    rw [hpw] at e2
    apply mul_right_cancel₀ (pow_ne_zero st.i hap.ne_zero)
    rw [← e2, hst.f, b2, hH]
    ring
  · obtain ⟨w, w1, w2⟩ := hst.assoc
    obtain ⟨u, hu⟩ := f3
    have hpd := Factored.pow_denote (v := polyVal v) fa (st.i - 1)
    rw [Nat.sub_add_cancel hst.pos] at hpd
    refine ⟨w * polyVal v fa.unit ^ (st.i - 1) * (u : R[X]) ^ st.i, (w1.mul (f2.unit.pow _)).mul (u.isUnit.pow _), ?_⟩
    rw [← w2, s2, e2, hpw, ← hu, mul_pow, ← hpd]; ring

theorem yunLoop_assoc (F : R[X]) (hF : F ≠ 0) (hD : F.natDegree ≤ D) (st : YunState α) (H : R[X]) (hst : YunStA S v F st H) :
    ∃ st' H', S.yunLoop pgcd sq st = some st' ∧ YunStA S v F st' H' ∧ (polyVal v st'.f).natDegree = 0 := by
  haveI := h.domain
  induction hn : (H * polyVal v st.b).natDegree using Nat.strong_induction_on generalizing st H with
  | _ n ih =>
    have hI := hst.inv
    have hf0 : polyVal v st.f ≠ 0 := by
      rw [hst.f]; exact mul_ne_zero hI.H_ne (pow_ne_zero _ hI.b_ne)
    rw [UfdOps.yunLoop, h.toSemi.polyDegree_some _ hf0]
    simp only [Option.bind_eq_bind, Option.bind_some]
    by_cases hd : (polyVal v st.f).natDegree = 0
    · rw [if_neg (by simpa using hd)]
      exact ⟨st, H, rfl, hst, hd⟩
    · rw [if_pos hd]
      obtain ⟨st', H', s1, s2, s3, s4⟩ := yunStep_assoc h hgcd hsq F hF hD st H hst
      have hb := hI.natDegree_b_pos st.i (by rw [← hst.f]; omega)
      obtain ⟨st2, H2, t1, t2, t3⟩ := ih (H' * polyVal v st'.b).natDegree (by
        rw [← hn, natDegree_mul hI.H_ne hI.b_ne, ← s4]; omega) st' H' s2 rfl
      exact ⟨st2, H2, by rw [s1]; exact t1, t2, t3⟩

/-- Yun's algorithm terminates and returns a valid factorization of an associate of its argument. -/
theorem factorizeYun_assoc (f : List α) (hf : polyVal v f ≠ 0) (hD : (polyVal v f).natDegree ≤ D) :
    ∃ r, S.factorizeYun pgcd sq f = some r ∧ r.Valid S.toFavOps.poly (polyVal v) ∧
      Associated (r.denote (polyVal v)) (polyVal v f) := by
  haveI := h.domain
  have hP := h.toFav.poly
  obtain ⟨c, p, p1, p2, -, p4, p5, -⟩ := h.toGcd.polyFactorPrimitiveUnwrap f hf
  obtain ⟨cf, c1, c2, c3⟩ := h.factorUnwrap c p2
  obtain ⟨k1, k2⟩ := h.polyConstFactored c2
  obtain ⟨a, a1, a2⟩ := h.polyGcdPrimSub_prim p (S.polyDerivative p) p5
  have hap : (polyVal v a).IsPrimitive := isPrim_of_dvd p5 (a2.1 _ (by simp))
  obtain ⟨b, b1, b2⟩ := hP.toDomain.div_unwrap p a hap.ne_zero (a2.1 _ (by simp))
  obtain ⟨d, d1, d2⟩ := hP.toDomain.div_unwrap (S.polyDerivative p) a hap.ne_zero (a2.1 _ (by simp))
  rw [h.toSemi.polyDerivative] at a2 d2
  have hinv := yunInv_init p5 a2 b2 d2
  have hst : YunStA S v (polyVal v f) ⟨polyConstFactored cf, p, b, S.yunD b d, 1⟩ (polyVal v a) := by
    refine ⟨?_, Nat.one_pos, ?_, k1, 1, isUnit_one, ?_⟩
    · show YunInv (polyVal v a) (polyVal v b) (polyVal v (S.yunD b d))
      rw [RingOps.Models.yunD_val h]; exact hinv
    · show polyVal v p = polyVal v a * polyVal v b ^ 1
      rw [pow_one, b2, mul_comm]
    · show (polyConstFactored cf).denote (polyVal v) * 1 * polyVal v p = polyVal v f
      rw [k2, c3, p4, mul_one]
  obtain ⟨st, H, s1, s2, s3⟩ := yunLoop_assoc h hgcd hsq _ hf hD _ _ hst
  have hI := s2.inv
  have hfu : IsUnit (polyVal v st.f) := by
    rw [s2.f] at s3 ⊢
    refine isUnit_of_prim_natDegree ?_ s3
    exact prim_mul hI.primH (prim_pow hI.primB _)
  have hfv : (Factored.factoredUnit st.f).Valid S.toFavOps.poly (polyVal v) :=
    ⟨hfu, by simp [Factored.factoredUnit], by simp [Factored.factoredUnit], by simp [Factored.factoredUnit], by simp [Factored.factoredUnit]⟩
  obtain ⟨r, r1, r2, r3⟩ := Factored.mul_spec hP st.factors (Factored.factoredUnit st.f) s2.valid.fav hfv.fav
  obtain ⟨w, w1, w2⟩ := s2.assoc
  have hr : r.denote (polyVal v) * w = polyVal v f := by
    rw [r2, ← w2]; simp [Factored.denote, Factored.factoredUnit]; ring
  refine ⟨r, ?_, r3 s2.valid hfv, ?_⟩
  · have hz : S.toSemiRingOps.poly.isZero f = false := (h.toSemi.poly.isZero_false f).2 hf
    have b1' : unwrapDiv (S.polyDiv p a) = some b := b1
    have d1' : unwrapDiv (S.polyDiv (S.polyDerivative p) a) = some d := d1
    rw [UfdOps.factorizeYun]
    simp only [hz, Bool.not_false, assertThat, if_true, p1, c1, UfdOps.yunInit, a1, b1', d1', Option.bind_eq_bind, Option.bind_some, s1]
    exact r1
  · obtain ⟨u, rfl⟩ := w1
    exact ⟨u, hr⟩

end
end Verif.Rings
