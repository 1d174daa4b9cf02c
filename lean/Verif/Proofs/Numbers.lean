import Verif.Proofs.Structure
import Mathlib.RingTheory.Ideal.Quotient.Operations
import Mathlib.RingTheory.PrincipalIdealDomain
import Mathlib.Algebra.Order.Ring.Int
import Mathlib.Algebra.Ring.Int.Units
import Mathlib.Tactic.FieldSimp
import Mathlib.Tactic.Linarith

namespace Verif.Rings

theorem natOps_models : natOps.Models (id : Nat → Nat) where
  equal a b := by simp [natOps]
  zero := rfl
  one := rfl
  add _ _ := rfl
  mul _ _ := rfl
  surj r := ⟨r, rfl⟩

theorem intRing_models : intRing.Models (id : Int → Int) where
  equal a b := by simp [intRing]
  zero := rfl
  one := rfl
  add _ _ := rfl
  mul _ _ := rfl
  surj r := ⟨r, rfl⟩
  neg _ := rfl

theorem intDiv_zero (a : Int) : intDiv a 0 = .error .divideByZero := by simp [intDiv, intQuorem]

theorem intDiv_ok (a b : Int) (hb : b ≠ 0) (h : b ∣ a) : intDiv a b = .ok (a.fdiv b) ∧ a = a.fdiv b * b := by
  have h0 : a.fmod b = 0 := Int.fmod_eq_zero_of_dvd h
  refine ⟨by simp [intDiv, intQuorem, hb, h0], ?_⟩
  have := Int.mul_fdiv_add_fmod a b
  rw [h0, add_zero] at this
  rw [mul_comm]; exact this.symm

theorem intDiv_not (a b : Int) (hb : b ≠ 0) (h : ¬ b ∣ a) : intDiv a b = .error .notDivisible := by
  have h0 : a.fmod b ≠ 0 := fun e => h (Int.dvd_of_fmod_eq_zero e)
  simp [intDiv, intQuorem, hb, h0]

theorem intFav_eq (a : Int) : (intFav a).2 = |a| ∧ a = (intFav a).1 * (intFav a).2 ∧ IsUnit (intFav a).1 := by
  unfold intFav
  split
  · subst_vars; simp
  split
  · rename_i h; simp [abs_of_neg h]
  · rename_i h1 h; simp [abs_of_nonneg (not_lt.1 h)]

theorem int_associated_abs {a b : Int} (h : Associated a b) : |a| = |b| := by
  rw [Int.abs_eq_natAbs, Int.abs_eq_natAbs, Int.associated_iff_natAbs.1 h]

theorem intOps_models : intOps.Models (id : Int → Int) where
  toRing := intRing_models
  domain := inferInstance
  div_zero a b hb := by
    change b = 0 at hb
    subst hb
    simp [intOps, intDiv_zero]
  div_ok a b hb h := ⟨a.fdiv b, by simp [intOps, (intDiv_ok a b hb h).1], (intDiv_ok a b hb h).2⟩
  div_not a b hb h := by simp [intOps, intDiv_not a b hb h]
  fav a := ⟨(intFav a).1, (intFav a).2, rfl, (intFav_eq a).2.2, (intFav_eq a).2.1⟩
  fav_zero a u w ha e := by
    change a = 0 at ha
    subst ha
    simp only [intOps, intFav, if_true, Option.some.injEq, Prod.mk.injEq] at e
    exact e.1.symm
  fav_unit a u w ha e := by
    simp only [intOps, Option.some.injEq] at e
    have h1 : w = |a| := by rw [← (intFav_eq a).1, e]
    rw [h1]
    rcases Int.isUnit_iff.1 ha with h | h <;> (change a = _ at h; subst h; rfl)
  fav_unique a b u w u' w' h e e' := by
    simp only [intOps, Option.some.injEq] at e e'
    have h1 : w = |a| := by rw [← (intFav_eq a).1, e]
    have h2 : w' = |b| := by rw [← (intFav_eq b).1, e']
    rw [h1, h2]
    exact int_associated_abs h
  norm a := by
    change intNorm a = none ↔ a = 0
    unfold intNorm
    split <;> simp_all
  norm_dvd a b n k hd e1 e2 := by
    change a ∣ b at hd
    change intNorm a = some n at e1
    change intNorm b = some k at e2
    unfold intNorm at e1 e2
    split at e1
    · simp at e1
    split at e2
    · simp at e2
    simp only [Option.some.injEq] at e1 e2
    subst e1 e2
    exact Nat.le_of_dvd (by omega) (Int.natAbs_dvd_natAbs.2 hd)
  quorem_zero a b hb := by
    change b = 0 at hb
    simp [intOps, intQuorem, hb]
  quorem a b hb := by
    change b ≠ 0 at hb
    refine ⟨a.fdiv b, a.fmod b, by simp [intOps, intQuorem, hb], ?_, ?_⟩
    · have := Int.mul_fdiv_add_fmod a b
      simp only [id_eq]
      rw [mul_comm]; exact this.symm
    · intro hr
      change a.fmod b ≠ 0 at hr
      refine ⟨(a.fmod b).natAbs, b.natAbs, by simp [intOps, intNorm, hr], by simp [intOps, intNorm, hb], ?_⟩
      rcases lt_or_gt_of_ne hb with h | h
      · have h1 := Int.fmod_nonneg_of_pos (-a) (b := -b) (by omega)
        have h2 := Int.fmod_lt_of_pos (-a) (b := -b) (by omega)
        rw [Int.neg_fmod_neg] at h1 h2
        omega
      · have h1 := Int.fmod_nonneg_of_pos a h
        have h2 := Int.fmod_lt_of_pos a h
        omega

theorem ratOps_models : ratOps.Models (id : ℚ → ℚ) where
  equal a b := by simp [ratOps]
  zero := rfl
  one := rfl
  add _ _ := rfl
  mul _ _ := rfl
  surj r := ⟨r, rfl⟩
  neg _ := rfl
  domain := inferInstance
  div_zero a b hb := by
    change b = 0 at hb
    simp [ratOps, hb]
  div_ok a b hb _ := by
    change b ≠ 0 at hb
    exact ⟨a / b, by simp [ratOps, hb], by simp only [id]; field_simp⟩
  div_not a b hb h := absurd ((isUnit_iff_ne_zero.2 hb).dvd) h

/-- congruence modulo `m` is equality in the quotient -/
theorem quot_eq_iff {R : Type} [CommRing R] (m x y : R) :
    Ideal.Quotient.mk (Ideal.span {m}) x = Ideal.Quotient.mk (Ideal.span {m}) y ↔ m ∣ x - y := by
  rw [Ideal.Quotient.eq, Ideal.mem_span_singleton]

section Quotient
variable {α R : Type} [CommRing R] {S : EucOps α} {v : α → R} (h : S.Models v) (m : α)
include h

theorem EucOps.Models.reduce (a : α) : v m ∣ v a - v (S.reduce m a) := by
  obtain ⟨r, h1, -, h3, -⟩ := h.rem a m
  simpa [EucOps.reduce, h1] using h3

theorem EucOps.Models.reduce_zero (a : α) (hm : v m ≠ 0) : v (S.reduce m a) = 0 ↔ v m ∣ v a := by
  haveI := h.domain
  constructor
  · intro e
    have := h.reduce m a
    rwa [e, sub_zero] at this
  · intro hd
    obtain ⟨q, r, h1, h2, h3⟩ := h.quorem a m hm
    have hr : S.reduce m a = r := by
      simp [EucOps.reduce, EucOps.rem, (h.toSemi.isZero_false m).2 hm, h1]
    rw [hr]
    by_contra hne
    have hdr : v m ∣ v r := by
      have : v r = v a - v q * v m := by rw [h2]; ring
      rw [this]; exact dvd_sub hd (Dvd.intro_left _ rfl)
    obtain ⟨n, k, n1, n2, n3⟩ := h3 hne
    have := h.norm_dvd m r k n hdr n2 n1
    omega

theorem EucOps.Models.mk_reduce (a : α) :
    Ideal.Quotient.mk (Ideal.span {v m}) (v (S.reduce m a)) = Ideal.Quotient.mk (Ideal.span {v m}) (v a) :=
  ((quot_eq_iff _ _ _).2 (h.reduce m a)).symm

theorem EucOps.Models.quotientRing (hm : v m ≠ 0) :
    (S.quotientRing m).Models (fun a => Ideal.Quotient.mk (Ideal.span {v m}) (v a)) where
  equal a b := by
    change S.isZero _ = true ↔ _
    rw [h.toSemi.isZero, h.reduce_zero m _ hm, quot_eq_iff, h.add, h.neg, sub_eq_add_neg]
  zero := by simp only [EucOps.quotientRing, h.zero, map_zero]
  one := by simp only [EucOps.quotientRing, h.one, map_one]
  add a b := by simp only [EucOps.quotientRing, h.mk_reduce, h.add, map_add]
  mul a b := by simp only [EucOps.quotientRing, h.mk_reduce, h.mul, map_mul]
  surj r := by
    obtain ⟨x, rfl⟩ := Ideal.Quotient.mk_surjective r
    obtain ⟨a, rfl⟩ := h.surj x
    exact ⟨a, rfl⟩
  neg a := by simp only [EucOps.quotientRing, h.neg, map_neg]

theorem EucOps.Models.quotientDiv_zero (top bot : α) (hm : v m ≠ 0) (hb : v m ∣ v bot) :
    S.quotientDiv m top bot = some (.error .divideByZero) := by
  have h1 : (S.quotientRing m).isZero bot = true := by
    rw [(h.quotientRing m hm).toSemi.isZero, Ideal.Quotient.eq_zero_iff_mem, Ideal.mem_span_singleton]
    exact hb
  simp [EucOps.quotientDiv, h1]

/-- division for an arbitrary modulus: it succeeds exactly when `gcd(bot, m)` divides `top` -/
theorem EucOps.Models.quotientDiv_spec (top bot : α) (hm : v m ≠ 0) (hb : ¬ v m ∣ v bot) :
    (∀ g, IsGcdOf {v bot, v m} g → g ∣ v top → ∃ q, S.quotientDiv m top bot = some (.ok q) ∧
      v m ∣ v top - v q * v bot) ∧
    (∀ g, IsGcdOf {v bot, v m} g → ¬ g ∣ v top → S.quotientDiv m top bot = some (.error .notDivisible)) := by
  haveI := h.domain
  have h1 : (S.quotientRing m).isZero bot = false := by
    rw [(h.quotientRing m hm).toSemi.isZero_false, Ne, Ideal.Quotient.eq_zero_iff_mem, Ideal.mem_span_singleton]
    exact hb
  obtain ⟨g, a, b, x1, x2, x3, x4⟩ := h.euclideanXgcd bot m
  have hg0 : v g ≠ 0 := by
    intro e
    rw [isGcdOf_pair, e, zero_dvd_iff, zero_dvd_iff] at x3
    exact hm x3.2.1
  have hstep : S.quotientDiv m top bot = (S.div top g).bind (S.quotientDivFinish m a) := by
    simp only [EucOps.quotientDiv, h1, Bool.false_eq_true, if_false, EucOps.quotientDivNonzero, x1,
      Option.bind_eq_bind, Option.bind_some]
    rw [assertThat, if_pos ((h.equal _ _).2 (by rw [h.add, h.mul, h.mul]; exact x2))]
    rfl
  constructor
  · intro g' hg' hd
    have ha := hg'.associated x3
    obtain ⟨d, d1, d2⟩ := h.div_ok top g hg0 ((ha.dvd_iff_dvd_left).1 hd)
    refine ⟨S.reduce m (S.mul a d), by rw [hstep, d1]; rfl, ?_⟩
    obtain ⟨c, hc⟩ := h.reduce m (S.mul a d)
    rw [h.mul] at hc
    refine ⟨v d * v b + c * v bot, ?_⟩
    have e1 : v (S.reduce m (S.mul a d)) = v a * v d - v m * c := by rw [← hc]; ring
    rw [e1, d2, x2]; ring
  · intro g' hg' hd
    have ha := hg'.associated x3
    have := h.div_not top g hg0 (fun hh => hd ((ha.dvd_iff_dvd_left).2 hh))
    rw [hstep, this]; rfl

theorem EucOps.Models.quotientField (hm : Irreducible (v m)) :
    (S.quotientField m).Models (fun a => Ideal.Quotient.mk (Ideal.span {v m}) (v a)) ∧
    IsField (R ⧸ Ideal.span {v m}) := by
  haveI := h.domain
  have hm0 : v m ≠ 0 := hm.ne_zero
  -- coprimality with an irreducible modulus
  have hgcd : ∀ b, ¬ v m ∣ v b → IsGcdOf {v b, v m} (1 : R) := by
    intro b hb
    rw [isGcdOf_pair]
    refine ⟨one_dvd _, one_dvd _, ?_⟩
    intro d hd1 ⟨c, hd2⟩
    rcases hm.isUnit_or_isUnit hd2 with hu | hu
    · exact hu.dvd
    · exfalso
      apply hb
      obtain ⟨c', hc'⟩ := hu
      have : d ∣ v b := hd1
      have hmd : v m ∣ d := ⟨((c'⁻¹ : Rˣ) : R), by rw [hd2, ← hc', mul_assoc, Units.mul_inv, mul_one]⟩
      exact hmd.trans this
  have hnz : ∀ b, Ideal.Quotient.mk (Ideal.span {v m}) (v b) = 0 ↔ v m ∣ v b := by
    intro b; rw [Ideal.Quotient.eq_zero_iff_mem, Ideal.mem_span_singleton]
  have hok : ∀ a b, Ideal.Quotient.mk (Ideal.span {v m}) (v b) ≠ 0 → ∃ q, S.quotientDiv m a b = some (.ok q) ∧
      Ideal.Quotient.mk (Ideal.span {v m}) (v a)
        = Ideal.Quotient.mk (Ideal.span {v m}) (v q) * Ideal.Quotient.mk (Ideal.span {v m}) (v b) := by
    intro a b hb
    rw [Ne, hnz] at hb
    obtain ⟨q, q1, q2⟩ := (h.quotientDiv_spec m a b hm0 hb).1 1 (hgcd b hb) (one_dvd _)
    exact ⟨q, q1, by rw [← map_mul, quot_eq_iff]; exact q2⟩
  have hfield : IsField (R ⧸ Ideal.span {v m}) := by
    have hsurj := (h.quotientRing m hm0).surj
    refine ⟨⟨0, 1, ?_⟩, mul_comm, ?_⟩
    · intro e
      rw [← map_zero (Ideal.Quotient.mk _), ← map_one (Ideal.Quotient.mk _), quot_eq_iff, zero_sub, dvd_neg] at e
      exact hm.not_isUnit (isUnit_of_dvd_one e)
    · intro r hr
      obtain ⟨b, rfl⟩ := hsurj r
      obtain ⟨q, -, q2⟩ := hok S.one b hr
      refine ⟨Ideal.Quotient.mk (Ideal.span {v m}) (v q), ?_⟩
      rw [mul_comm, ← q2, h.one, map_one]
  refine ⟨?_, hfield⟩
  exact {
    toRing := h.quotientRing m hm0
    domain := hfield.isDomain
    div_zero := fun a b hb => h.quotientDiv_zero m a b hm0 ((hnz b).1 hb)
    div_ok := fun a b hb _ => hok a b hb
    div_not := fun a b hb hn => by
      obtain ⟨q, -, q2⟩ := hok a b hb
      exact absurd ⟨_, by rw [q2, mul_comm]⟩ hn }

end Quotient
end Verif.Rings
