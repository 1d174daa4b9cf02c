import Verif.Spec.Structure
import Verif.Proofs.Pow
import Mathlib.Tactic.Ring
import Mathlib.Tactic.LinearCombination
import Mathlib.Algebra.BigOperators.Group.List.Basic
import Mathlib.RingTheory.Coprime.Basic

namespace Verif.Rings

section Semi
variable {α R : Type} [Semiring R] {S : SemiRingOps α} {v : α → R} (h : S.Models v)
include h

theorem SemiRingOps.Models.isZero (a : α) : S.isZero a = true ↔ v a = 0 := by
  rw [SemiRingOps.isZero, h.equal, h.zero]

theorem SemiRingOps.Models.isZero_false (a : α) : S.isZero a = false ↔ v a ≠ 0 := by
  rw [← Bool.not_eq_true, h.isZero]

theorem SemiRingOps.Models.foldl_add (l : List α) (c : α) : v (l.foldl S.add c) = v c + (l.map v).sum := by
  induction l generalizing c with
  | nil => simp
  | cons x t ih => simp [ih, h.add, add_assoc]

theorem SemiRingOps.Models.foldl_mul (l : List α) (c : α) : v (l.foldl S.mul c) = v c * (l.map v).prod := by
  induction l generalizing c with
  | nil => simp
  | cons x t ih => simp [ih, h.mul, mul_assoc]

theorem SemiRingOps.Models.sum (l : List α) : v (S.sum l) = (l.map v).sum := by
  rw [SemiRingOps.sum, h.foldl_add, h.zero, zero_add]

theorem SemiRingOps.Models.product (l : List α) : v (S.product l) = (l.map v).prod := by
  rw [SemiRingOps.product, h.foldl_mul, h.one, one_mul]

theorem SemiRingOps.Models.natPow (a : α) (n : Nat) : v (S.natPow a n) = v a ^ n := by
  rw [SemiRingOps.natPow, binPow_map S.mul S.one a (· * ·) 1 v h.one h.mul, binPow_eq_pow]

theorem SemiRingOps.Models.fromNat_fold (bits : List Bool) (a b two : α) (k : Nat) (hb : v b = ((2 ^ k : Nat) : R))
    (ht : v two = ((2 : Nat) : R)) :
    v (bits.foldl (S.fromNatStep two) (a, b)).1
      = v a + ((2 ^ k * Nat.ofDigits 2 (bits.map fun b => bif b then 1 else 0) : Nat) : R) := by
  induction bits generalizing a b k with
  | nil => simp
  | cons c t ih =>
    simp only [List.foldl_cons, List.map_cons, Nat.ofDigits_cons, SemiRingOps.fromNatStep]
    rw [ih _ _ (k + 1) (by rw [h.mul, hb, ht, pow_succ]; push_cast; rfl)]
    cases c
    · simp only [Bool.false_eq_true, ↓reduceIte, cond_false]
      congr 2
      ring
    · simp only [↓reduceIte, cond_true, h.add, hb, add_assoc]
      rw [← Nat.cast_add]
      congr 2
      ring

theorem SemiRingOps.Models.fromNat (x : Nat) : v (S.fromNat x) = (x : R) := by
  unfold SemiRingOps.fromNat
  split
  · subst_vars; simpa using h.zero
  split
  · subst_vars; simpa using h.one
  rw [h.fromNat_fold x.bits S.zero S.one _ 0 (by simpa using h.one)
    (by rw [h.add, h.one]; norm_num [one_add_one_eq_two])]
  have e : Nat.ofDigits 2 (x.bits.map fun b => bif b then 1 else 0) = x := by
    rw [← Nat.digits_two_eq_bits]; exact Nat.ofDigits_digits 2 x
  rw [e, h.zero]; simp

end Semi

section Ring
variable {α R : Type} [Ring R] {S : RingOps α} {v : α → R} (h : S.Models v)
include h

theorem RingOps.Models.fromInt (x : Int) : v (S.fromInt x) = (x : R) := by
  unfold RingOps.fromInt
  split
  · rw [h.neg, h.toSemi.fromNat]
    have : x = -(x.natAbs : Int) := by omega
    conv_rhs => rw [this]
    simp
  · rw [h.toSemi.fromNat]
    have : x = (x.natAbs : Int) := by omega
    conv_rhs => rw [this]
    simp

end Ring

section Domain
variable {α R : Type} [CommRing R] {S : DomainOps α} {v : α → R} (h : S.Models v)
include h

theorem DomainOps.Models.div_cases (a b : α) :
    (v b = 0 ∧ S.div a b = some (.error .divideByZero)) ∨
    (v b ≠ 0 ∧ ∃ q, S.div a b = some (.ok q) ∧ v a = v q * v b) ∨
    (v b ≠ 0 ∧ ¬ v b ∣ v a ∧ S.div a b = some (.error .notDivisible)) := by
  by_cases hb : v b = 0
  · exact Or.inl ⟨hb, h.div_zero a b hb⟩
  · by_cases hd : v b ∣ v a
    · exact Or.inr (Or.inl ⟨hb, h.div_ok a b hb hd⟩)
    · exact Or.inr (Or.inr ⟨hb, hd, h.div_not a b hb hd⟩)

theorem DomainOps.Models.divisible (a b : α) :
    S.divisible a b = some (@decide (v b ≠ 0 ∧ v b ∣ v a) (Classical.propDecidable _)) := by
  classical
  rcases h.div_cases a b with ⟨h1, h2⟩ | ⟨h1, q, h2, h3⟩ | ⟨h1, h2, h3⟩
  · simp [DomainOps.divisible, h2, isOkDiv, h1]
  · have : v b ∣ v a := ⟨v q, by rw [h3, mul_comm]⟩
    simp [DomainOps.divisible, h2, isOkDiv, h1, this]
  · simp [DomainOps.divisible, h3, isOkDiv, h2]

theorem DomainOps.Models.isUnit (a : α) :
    S.isUnit a = some (@decide (IsUnit (v a)) (Classical.propDecidable _)) := by
  classical
  haveI := h.domain
  rcases h.div_cases S.one a with ⟨h1, h2⟩ | ⟨h1, q, h2, h3⟩ | ⟨h1, h2, h3⟩
  · have : ¬ IsUnit (v a) := by rw [h1]; exact not_isUnit_zero
    simp [DomainOps.isUnit, h2, isOkDiv, this]
  · rw [h.one] at h3
    have : IsUnit (v a) := IsUnit.of_mul_eq_one (v q) (by rw [mul_comm, ← h3])
    simp [DomainOps.isUnit, h2, isOkDiv, this]
  · rw [h.one] at h2
    have : ¬ IsUnit (v a) := fun hu => h2 hu.dvd
    simp [DomainOps.isUnit, h3, isOkDiv, this]

theorem DomainOps.Models.div_unwrap (a b : α) (hb : v b ≠ 0) (hd : v b ∣ v a) :
    ∃ q, unwrapDiv (S.div a b) = some q ∧ v a = v q * v b := by
  obtain ⟨q, h1, h2⟩ := h.div_ok a b hb hd
  exact ⟨q, by simp [h1, unwrapDiv], h2⟩

theorem DomainOps.Models.inv_unwrap (a : α) (ha : IsUnit (v a)) :
    ∃ i, unwrapDiv (S.inv a) = some i ∧ v i * v a = 1 := by
  haveI := h.domain
  obtain ⟨q, h1, h2⟩ := h.div_unwrap S.one a ha.ne_zero ha.dvd
  exact ⟨q, h1, by rw [← h2, h.one]⟩

theorem DomainOps.Models.areAssociate (a b : α) :
    S.areAssociate a b = some (@decide (Associated (v a) (v b)) (Classical.propDecidable _)) := by
  classical
  haveI := h.domain
  unfold DomainOps.areAssociate
  by_cases h0 : v a = 0 ∧ v b = 0
  · have h1 : S.equal a S.zero = true := by rw [h.equal, h.zero]; exact h0.1
    have h2 : S.equal b S.zero = true := by rw [h.equal, h.zero]; exact h0.2
    rw [h1, h2]
    simp [h0.1, h0.2]
  · have h1 : (S.equal a S.zero && S.equal b S.zero) = false := by
      rw [← Bool.not_eq_true, Bool.and_eq_true, h.equal, h.equal, h.zero]; exact h0
    rw [h1]
    simp only [Bool.false_eq_true, ↓reduceIte, DomainOps.bothDiv]
    rcases h.div_cases a b with ⟨h1, h2⟩ | ⟨h1, q, h2, h3⟩ | ⟨h1, h2, h3⟩
    · have : ¬ Associated (v a) (v b) := by
        rw [h1, associated_zero_iff_eq_zero]; exact fun h => h0 ⟨h, h1⟩
      simp [h2, isOkDiv, this]
    · rcases h.div_cases b a with ⟨g1, g2⟩ | ⟨g1, q', g2, g3⟩ | ⟨g1, g2, g3⟩
      · have : ¬ Associated (v a) (v b) := by
          rw [g1]; intro hh; exact h1 ((associated_zero_iff_eq_zero _).1 hh.symm)
        simp [h2, g2, isOkDiv, this]
      · have : Associated (v a) (v b) :=
          associated_of_dvd_dvd ⟨v q', by rw [g3, mul_comm]⟩ ⟨v q, by rw [h3, mul_comm]⟩
        simp [h2, g2, isOkDiv, this]
      · have : ¬ Associated (v a) (v b) := fun hh => g2 hh.dvd
        simp [h2, g3, isOkDiv, this]
    · have : ¬ Associated (v a) (v b) := fun hh => h2 hh.dvd'
      simp [h3, isOkDiv, this]

end Domain

section Fav
variable {α R : Type} [CommRing R] {S : FavOps α} {v : α → R} (h : S.Models v)
include h

theorem FavOps.Models.favAssoc (a : α) :
    ∃ w, S.favAssoc a = some w ∧ Associated (v a) (v w) ∧ S.IsFav v (v w) := by
  obtain ⟨u, w, h1, h2, h3⟩ := h.fav a
  refine ⟨w, by simp [FavOps.favAssoc, h1], ?_, ?_⟩
  · obtain ⟨u', hu'⟩ := h2
    exact (Associated.symm ⟨u', by rw [hu', h3, mul_comm]⟩)
  · intro a' u' w' e1 e2
    have ha : Associated (v a') (v a) := by
      rw [e1]
      obtain ⟨u'', hu''⟩ := h2
      exact ⟨u'', by rw [hu'', h3, mul_comm]⟩
    exact h.fav_unique a' a u' w' u w ha e2 h1

/-- favourite associates that are associated are equal -/
theorem FavOps.Models.isFav_eq {r s : R} (hr : S.IsFav v r) (hs : S.IsFav v s) (ha : Associated r s) : r = s := by
  obtain ⟨a, rfl⟩ := h.surj r
  obtain ⟨b, rfl⟩ := h.surj s
  obtain ⟨u, w, h1, -, -⟩ := h.fav a
  obtain ⟨u', w', h1', -, -⟩ := h.fav b
  rw [← hr a u w rfl h1, ← hs b u' w' rfl h1']
  exact h.fav_unique a b u w u' w' ha h1 h1'

theorem FavOps.Models.isFav_one : S.IsFav v 1 := by
  intro a u w h1 h2
  exact h.fav_unit a u w (by rw [h1]; exact isUnit_one) h2

theorem FavOps.Models.isFav_zero : S.IsFav v 0 := by
  intro a u w h1 h2
  obtain ⟨u', w', g1, g2, g3⟩ := h.fav a
  rw [h2] at g1
  simp only [Option.some.injEq, Prod.mk.injEq] at g1
  obtain ⟨rfl, rfl⟩ := g1
  rw [h1] at g3
  exact (g2.mul_right_eq_zero).1 g3.symm

theorem FavOps.Models.isFavAssoc (a : α) :
    S.isFavAssoc a = some (@decide (S.IsFav v (v a)) (Classical.propDecidable _)) := by
  classical
  obtain ⟨u, w, h1, h2, h3⟩ := h.fav a
  simp only [FavOps.isFavAssoc, h1, Option.map_some, Option.some.injEq]
  rw [Bool.eq_iff_iff, h.equal, decide_eq_true_iff]
  constructor
  · intro e a' u' w' e1 e2
    rw [h.fav_unique a' a u' w' u w (by rw [e1]) e2 h1, e]
  · intro hf
    exact (hf a u w rfl h1).symm

end Fav

section Gcd

theorem IsGcdOf.associated {R : Type} [CommRing R] [IsDomain R] {s : Set R} {g g' : R} (h : IsGcdOf s g)
    (h' : IsGcdOf s g') : Associated g g' :=
  associated_of_dvd_dvd (h'.2 g h.1) (h.2 g' h'.1)

theorem isGcdOf_pair {R : Type} [CommRing R] {x y g : R} :
    IsGcdOf {x, y} g ↔ g ∣ x ∧ g ∣ y ∧ ∀ d, d ∣ x → d ∣ y → d ∣ g := by
  simp [IsGcdOf, and_assoc]

theorem isGcdOf_of_associated {R : Type} [CommRing R] {s : Set R} {g g' : R} (h : IsGcdOf s g) (ha : Associated g g') :
    IsGcdOf s g' :=
  ⟨fun x hx => (ha.dvd_iff_dvd_left).1 (h.1 x hx), fun d hd => (ha.dvd_iff_dvd_right).1 (h.2 d hd)⟩

end Gcd

section Euclid
variable {α R : Type} [CommRing R] {S : EucOps α} {v : α → R} (h : S.Models v)
include h

theorem EucOps.Models.rem (a b : α) : ∃ r, S.rem a b = some r ∧ (v b = 0 → r = a) ∧ v b ∣ v a - v r ∧
    (v b ≠ 0 → v r ≠ 0 → ∃ n m, S.norm r = some n ∧ S.norm b = some m ∧ n < m) := by
  by_cases hb : v b = 0
  · exact ⟨a, by simp [EucOps.rem, (h.toSemi.isZero b).2 hb], fun _ => rfl, by simp, fun hh => absurd hb hh⟩
  · obtain ⟨q, r, h1, h2, h3⟩ := h.quorem a b hb
    refine ⟨r, by simp [EucOps.rem, (h.toSemi.isZero_false b).2 hb, h1], fun hh => absurd hh hb,
      ⟨v q, by rw [h2]; ring⟩, fun _ => h3⟩

/-- the size used for the induction: 0 for zero, norm+1 otherwise -/
def EucOps.size (S : EucOps α) (a : α) : Nat := match S.norm a with | none => 0 | some n => n + 1

theorem EucOps.Models.rem_size (a b : α) (hb : v b ≠ 0) (r : α) (hr : S.rem a b = some r) : S.size r < S.size b := by
  obtain ⟨r', h1, -, -, h4⟩ := h.rem a b
  rw [hr] at h1
  simp only [Option.some.injEq] at h1
  subst h1
  by_cases h0 : v r = 0
  · have e1 : S.size r = 0 := by simp [EucOps.size, (h.norm r).2 h0]
    have e2 : S.size b ≠ 0 := by
      unfold EucOps.size
      rcases hn : S.norm b with _ | n
      · exact absurd ((h.norm b).1 hn) hb
      · simp
    omega
  · obtain ⟨n, m, g1, g2, g3⟩ := h4 hb h0
    simp only [EucOps.size, g1, g2]
    omega

theorem EucOps.Models.gcdLoop (x y : α) : ∃ g, S.gcdLoop x y = some g ∧ IsGcdOf {v x, v y} (v g) := by
  induction hn : S.size y using Nat.strong_induction_on generalizing x y with
  | _ n ih =>
    rw [EucOps.gcdLoop]
    by_cases hy : v y = 0
    · rw [if_pos ((h.toSemi.isZero y).2 hy)]
      exact ⟨x, rfl, isGcdOf_pair.2 ⟨dvd_rfl, by rw [hy]; exact dvd_zero _, fun d hd _ => hd⟩⟩
    · have e := (h.toSemi.isZero_false y).2 hy
      rw [if_neg (by rw [e]; simp)]
      obtain ⟨r, h1, -, h3, -⟩ := h.rem x y
      obtain ⟨g, g1, g2⟩ := ih _ (by rw [← hn]; exact h.rem_size x y hy r h1) y r rfl
      refine ⟨g, by rw [h1]; exact g1, ?_⟩
      rw [isGcdOf_pair] at g2 ⊢
      refine ⟨?_, g2.1, fun d hd1 hd2 => g2.2.2 d hd2 ?_⟩
      · have := dvd_add (g2.1.trans h3) g2.2.1
        simpa using this
      · have := dvd_sub hd1 (hd2.trans h3)
        simpa using this

theorem EucOps.Models.euclideanGcd (x y : α) :
    ∃ g, S.euclideanGcd x y = some g ∧ IsGcdOf {v x, v y} (v g) ∧ S.IsFav v (v g) := by
  obtain ⟨g, h1, h2⟩ := h.gcdLoop x y
  obtain ⟨w, g1, g2, g3⟩ := h.toFav.favAssoc g
  exact ⟨w, by simp [EucOps.euclideanGcd, h1, g1], isGcdOf_of_associated h2 g2, g3⟩

theorem EucOps.Models.xgcdLoop (x y : R) (st : XState α) (h1 : v st.x = v st.pa * x + v st.pb * y)
    (h2 : v st.y = v st.a * x + v st.b * y) (hg : ∀ g, IsGcdOf {v st.x, v st.y} g → IsGcdOf {x, y} g) :
    ∃ st', S.xgcdLoop st = some st' ∧ v st'.x = v st'.pa * x + v st'.pb * y ∧ IsGcdOf {x, y} (v st'.x) := by
  induction hn : S.size st.y using Nat.strong_induction_on generalizing st with
  | _ n ih =>
    rw [EucOps.xgcdLoop]
    by_cases hy : v st.y = 0
    · rw [if_pos ((h.toSemi.isZero _).2 hy)]
      exact ⟨st, rfl, h1, hg _ (isGcdOf_pair.2 ⟨dvd_rfl, by rw [hy]; exact dvd_zero _, fun d hd _ => hd⟩)⟩
    · have e := (h.toSemi.isZero_false _).2 hy
      rw [if_neg (by rw [e]; simp)]
      obtain ⟨q, r, g1, g2, g3⟩ := h.quorem st.x st.y hy
      have hq : S.quoremUnwrap st.x st.y = some (q, r) := by simp [EucOps.quoremUnwrap, g1]
      have hrem : S.rem st.x st.y = some r := by simp [EucOps.rem, e, g1]
      have hdec := h.rem_size _ _ hy r hrem
      obtain ⟨st', k1, k2, k3⟩ := ih _ (by rw [← hn]; exact hdec) (S.xStep st q r) h2
        (by
          have e1 : v r = v st.x - v q * v st.y := by rw [g2]; ring
          simp only [EucOps.xStep, h.add, h.neg, h.mul]
          rw [e1, h1, h2]; ring)
        (by
          intro g hgg
          apply hg
          simp only [EucOps.xStep] at hgg
          rw [isGcdOf_pair] at hgg ⊢
          refine ⟨?_, hgg.1, fun d hd1 hd2 => hgg.2.2 d hd2 ?_⟩
          · rw [g2]; exact dvd_add (hgg.1.mul_left _) hgg.2.1
          · have e1 : v r = v st.x - v q * v st.y := by rw [g2]; ring
            rw [e1]; exact dvd_sub hd1 (hd2.mul_left _))
        rfl
      exact ⟨st', by rw [hq]; exact k1, k2, k3⟩

theorem EucOps.Models.euclideanXgcd (x y : α) :
    ∃ g a b, S.euclideanXgcd x y = some (g, a, b) ∧ v g = v a * v x + v b * v y ∧
      IsGcdOf {v x, v y} (v g) ∧ S.IsFav v (v g) := by
  haveI := h.domain
  obtain ⟨st, h1, h2, h3⟩ := h.xgcdLoop (v x) (v y) ⟨x, y, S.one, S.zero, S.zero, S.one⟩
    (by simp [h.one, h.zero]) (by simp [h.one, h.zero]) (fun _ hg => hg)
  obtain ⟨u, w, f1, f2, f3⟩ := h.fav st.x
  obtain ⟨a, a1, a2⟩ := h.div_unwrap st.pa u f2.ne_zero f2.dvd
  obtain ⟨b, b1, b2⟩ := h.div_unwrap st.pb u f2.ne_zero f2.dvd
  have hu : S.isUnit u = some true := by rw [h.toDomain.isUnit]; simpa using f2
  have hbez : v w = v a * v x + v b * v y := by
    apply mul_left_cancel₀ f2.ne_zero
    rw [← f3, h2, a2, b2]; ring
  have hass : Associated (v st.x) (v w) := by
    obtain ⟨u', hu'⟩ := f2
    exact Associated.symm ⟨u', by rw [hu', f3, mul_comm]⟩
  have hgw := isGcdOf_of_associated h3 hass
  obtain ⟨w', w1, w2, w3⟩ := h.toFav.favAssoc st.x
  have hfw : S.IsFav v (v w) := by
    simp only [FavOps.favAssoc, f1, Option.map_some, Option.some.injEq] at w1
    rw [w1]; exact w3
  obtain ⟨g, g1, g2, g3⟩ := h.euclideanGcd x y
  have hgeq : v w = v g := h.toFav.isFav_eq hfw g3 (hgw.associated g2)
  refine ⟨w, a, b, ?_, hbez, hgw, hfw⟩
  unfold EucOps.euclideanXgcd
  rw [h1]
  simp only [Option.bind_eq_bind, Option.bind_some, f1, hu, a1, b1, g1, assertThat, if_true]
  rw [if_pos ((h.equal _ _).2 (by rw [h.add, h.mul, h.mul]; exact hbez.symm)), if_pos ((h.equal _ _).2 hgeq)]
  rfl

/-- a Euclidean structure is a Bézout structure -/
theorem EucOps.Models.bezout : S.bezout.Models v where
  toFav := h.toFav
  gcd := h.euclideanGcd
  xgcd := h.euclideanXgcd

end Euclid

section Bezout
variable {α R : Type} [CommRing R] {S : GcdOps α} {v : α → R} (h : S.Models v)
include h

theorem GcdOps.Models.gcdList_fold (l : List α) (c : α) (hc : S.IsFav v (v c)) :
    ∃ g, l.foldlM S.gcd c = some g ∧ IsGcdOf (insert (v c) {r | r ∈ l.map v}) (v g) ∧ S.IsFav v (v g) := by
  induction l generalizing c with
  | nil => exact ⟨c, rfl, by simp [IsGcdOf], hc⟩
  | cons x t ih =>
    obtain ⟨g, g1, g2, g3⟩ := h.gcd c x
    obtain ⟨g', k1, k2, k3⟩ := ih g g3
    refine ⟨g', by simp [List.foldlM_cons, g1, k1], ⟨?_, ?_⟩, k3⟩
    · intro r hr
      simp only [List.map_cons, List.mem_cons, Set.mem_insert_iff, Set.mem_setOf_eq] at hr
      rw [isGcdOf_pair] at g2
      rcases hr with rfl | rfl | hr
      · exact (k2.1 (v g) (by simp)).trans g2.1
      · exact (k2.1 (v g) (by simp)).trans g2.2.1
      · exact k2.1 r (by simp only [Set.mem_insert_iff, Set.mem_setOf_eq]; exact Or.inr hr)
    · intro d hd
      apply k2.2
      intro r hr
      simp only [Set.mem_insert_iff, Set.mem_setOf_eq] at hr
      rcases hr with rfl | hr
      · exact (isGcdOf_pair.1 g2).2.2 d (hd _ (by simp)) (hd _ (by simp))
      · exact hd r (by simp only [List.map_cons, List.mem_cons, Set.mem_insert_iff, Set.mem_setOf_eq]; exact Or.inr (Or.inr hr))

theorem GcdOps.Models.gcdList (l : List α) :
    ∃ g, S.gcdList l = some g ∧ IsGcdOf {r | r ∈ l.map v} (v g) ∧ S.IsFav v (v g) := by
  obtain ⟨g, g1, g2, g3⟩ := h.gcdList_fold l S.zero (by rw [h.zero]; exact h.toFav.isFav_zero)
  refine ⟨g, g1, ⟨fun x hx => g2.1 x (Or.inr hx), fun d hd => g2.2 d ?_⟩, g3⟩
  intro x hx
  rcases hx with rfl | hx
  · rw [h.zero]; exact dvd_zero d
  · exact hd x hx

theorem isLcmOf_of_gcd {R : Type} [CommRing R] [IsDomain R] (x y g m : R) (h0 : ¬ (x = 0 ∧ y = 0))
    (hgcd : ∀ a b : R, ∃ c, IsGcdOf {a, b} c)
    (hg : IsGcdOf {x, y} g) (hm : x * y = m * g) : IsLcmOf {x, y} m := by
  rw [isGcdOf_pair] at hg
  obtain ⟨⟨x', hx⟩, ⟨y', hy⟩, hmax⟩ := hg
  have hg0 : g ≠ 0 := by
    rintro rfl
    exact h0 ⟨by rw [hx, zero_mul], by rw [hy, zero_mul]⟩
  have hm1 : m = x' * y := by
    apply mul_right_cancel₀ hg0
    rw [← hm, hx]; ring
  have hm2 : m = x * y' := by
    apply mul_right_cancel₀ hg0
    rw [← hm]; conv_lhs => rw [hy]
    ring
  refine ⟨?_, ?_⟩
  · intro z hz
    simp only [Set.mem_insert_iff, Set.mem_singleton_iff] at hz
    rcases hz with rfl | rfl
    · exact ⟨y', hm2⟩
    · exact ⟨x', by rw [hm1, mul_comm]⟩
  · intro d hd
    obtain ⟨s, hs⟩ := hd x (by simp)
    obtain ⟨t, ht⟩ := hd y (by simp)
    -- e = gcd(d*x', d*y') ... use gcd of (d*x, d*y)
    obtain ⟨c, hc⟩ := hgcd (d * x) (d * y)
    rw [isGcdOf_pair] at hc
    obtain ⟨hc1, hc2, hc3⟩ := hc
    -- c is associated to d * g
    by_cases hd0 : d = 0
    · rw [hd0]; exact dvd_zero m
    have hdc : d ∣ c := hc3 d ⟨x, rfl⟩ ⟨y, rfl⟩
    obtain ⟨c', rfl⟩ := hdc
    have hcg : c' ∣ g := hmax c' (by
        obtain ⟨w, hw⟩ := hc1
        exact ⟨w, mul_left_cancel₀ hd0 (by rw [hw]; ring)⟩) (by
        obtain ⟨w, hw⟩ := hc2
        exact ⟨w, mul_left_cancel₀ hd0 (by rw [hw]; ring)⟩)
    have : x * y ∣ d * c' := hc3 (x * y) (by rw [ht]; exact ⟨t, by ring⟩) (by rw [hs]; exact ⟨s, by ring⟩)
    rw [hm] at this
    have h2 : m * g ∣ d * g := this.trans (mul_dvd_mul_left d hcg)
    exact (mul_dvd_mul_iff_right hg0).1 h2

theorem GcdOps.Models.exists_gcd (a b : R) : ∃ c, IsGcdOf {a, b} c := by
  obtain ⟨x, rfl⟩ := h.surj a
  obtain ⟨y, rfl⟩ := h.surj b
  obtain ⟨g, -, h2, -⟩ := h.gcd x y
  exact ⟨_, h2⟩

theorem GcdOps.Models.lcm (x y : α) : ∃ m, S.lcm x y = some m ∧ IsLcmOf {v x, v y} (v m) := by
  haveI := h.domain
  unfold GcdOps.lcm
  by_cases h0 : v x = 0 ∧ v y = 0
  · rw [if_pos (by rw [Bool.and_eq_true, h.toSemi.isZero, h.toSemi.isZero]; exact h0)]
    refine ⟨_, rfl, ?_⟩
    rw [h.zero, h0.1, h0.2]
    exact ⟨by simp, fun d hd => hd 0 (by simp)⟩
  · rw [if_neg (by rw [Bool.and_eq_true, h.toSemi.isZero, h.toSemi.isZero]; exact h0)]
    obtain ⟨g, g1, g2, -⟩ := h.gcd x y
    have hg := isGcdOf_pair.1 g2
    have hg0 : v g ≠ 0 := by
      intro e
      rw [e, zero_dvd_iff, zero_dvd_iff] at hg
      exact h0 ⟨hg.1, hg.2.1⟩
    obtain ⟨q, q1, q2⟩ := h.div_unwrap (S.mul x y) g hg0 (by rw [h.mul]; exact hg.1.mul_right _)
    refine ⟨q, by simp [g1, q1], ?_⟩
    rw [h.mul] at q2
    exact isLcmOf_of_gcd h (v x) (v y) (v g) (v q) h0 h.exists_gcd g2 q2

theorem GcdOps.Models.lcmList_fold (l : List α) (c : α) :
    ∃ m, l.foldlM S.lcm c = some m ∧ IsLcmOf (insert (v c) {r | r ∈ l.map v}) (v m) := by
  induction l generalizing c with
  | nil => exact ⟨c, rfl, by simp [IsLcmOf]⟩
  | cons x t ih =>
    obtain ⟨g, g1, g2⟩ := h.lcm c x
    obtain ⟨g', k1, k2⟩ := ih g
    refine ⟨g', by simp [List.foldlM_cons, g1, k1], ⟨?_, ?_⟩⟩
    · intro r hr
      simp only [List.map_cons, List.mem_cons, Set.mem_insert_iff, Set.mem_setOf_eq] at hr
      rcases hr with rfl | rfl | hr
      · exact (g2.1 _ (by simp)).trans (k2.1 (v g) (by simp))
      · exact (g2.1 _ (by simp)).trans (k2.1 (v g) (by simp))
      · exact k2.1 r (by simp only [Set.mem_insert_iff, Set.mem_setOf_eq]; exact Or.inr hr)
    · intro d hd
      apply k2.2
      intro r hr
      simp only [Set.mem_insert_iff, Set.mem_setOf_eq] at hr
      rcases hr with rfl | hr
      · exact g2.2 d (fun z hz => by
          simp only [Set.mem_insert_iff, Set.mem_singleton_iff] at hz
          rcases hz with rfl | rfl
          · exact hd _ (by simp)
          · exact hd _ (by simp))
      · exact hd r (by simp only [List.map_cons, List.mem_cons, Set.mem_insert_iff, Set.mem_setOf_eq]; exact Or.inr (Or.inr hr))

end Bezout

section XgcdList
variable {α R : Type} [CommRing R] {S : BezoutOps α} {v : α → R} (h : S.Models v)
include h

/-- the value of a linear combination -/
theorem BezoutOps.Models.xgcdList (l : List α) :
    ∃ g cs, S.xgcdList l = some (g, cs) ∧ cs.length = l.length ∧
      v g = (List.zipWith (fun c x => v c * v x) cs l).sum ∧ IsGcdOf {r | r ∈ l.map v} (v g) ∧ S.IsFav v (v g) := by
  haveI := h.domain
  induction hn : l.length using Nat.strong_induction_on generalizing l with
  | _ n ih =>
    match l with
    | [] => exact ⟨S.zero, [], by simp [BezoutOps.xgcdList], by simp at hn; simp [hn], by simpa using h.zero,
        by rw [h.zero]; simp [IsGcdOf], by rw [h.zero]; exact h.toFav.isFav_zero⟩
    | [e] =>
      obtain ⟨u, w, h1, h2, h3⟩ := h.fav e
      obtain ⟨i, i1, i2⟩ := h.inv_unwrap u h2
      obtain ⟨w', w1, w2, w3⟩ := h.toFav.favAssoc e
      simp only [FavOps.favAssoc, h1, Option.map_some, Option.some.injEq] at w1
      subst w1
      refine ⟨w, [i], by simp [BezoutOps.xgcdList, BezoutOps.xgcdOne, h1, i1], by simp at hn; simp [← hn], ?_, ?_, w3⟩
      · simp only [List.zipWith_cons_cons, List.zipWith_nil_left, List.sum_cons, List.sum_nil, add_zero]
        rw [h3, ← mul_assoc, i2, one_mul]
      · exact isGcdOf_of_associated (g := v e) (by simp [IsGcdOf]) w2
    | [e, f] =>
      obtain ⟨g, a, b, h1, h2, h3, h4⟩ := h.xgcd e f
      refine ⟨g, [a, b], by simp [BezoutOps.xgcdList, h1], by simp at hn; simp [← hn], by simpa using h2, ?_, h4⟩
      convert h3 using 1
      ext r; simp
    | e :: f :: g :: rest =>
      set l := e :: f :: g :: rest with hl
      have hlen : 3 ≤ l.length := by simp [hl]
      have htk : (l.take (l.length / 2)).length = l.length / 2 := by rw [List.length_take]; omega
      have hdk : (l.drop (l.length / 2)).length = l.length - l.length / 2 := by rw [List.length_drop]
      obtain ⟨g1, c1, r1, r2, r3, r4, r5⟩ := ih _ (by omega) (l.take (l.length / 2)) rfl
      obtain ⟨g2, c2, s1, s2, s3, s4, s5⟩ := ih _ (by omega) (l.drop (l.length / 2)) rfl
      obtain ⟨gg, x, y, t1, t2, t3, t4⟩ := h.xgcd g1 g2
      have hsum : ∀ (z : α) (cs xs : List α), (List.zipWith (fun c x => v c * v x) (cs.map (S.mul z)) xs).sum
          = v z * (List.zipWith (fun c x => v c * v x) cs xs).sum := by
        intro z cs
        induction cs with
        | nil => simp
        | cons c t ih' =>
          intro xs
          cases xs with
          | nil => simp
          | cons x xs => simp [ih', h.mul]; ring
      refine ⟨gg, c1.map (S.mul x) ++ c2.map (S.mul y), ?_, ?_, ?_, ?_, t4⟩
      · rw [hl, BezoutOps.xgcdList]
        simp only [← hl]
        rw [r1]
        simp only [Option.bind_some]
        rw [s1]
        simp [BezoutOps.xgcdCombine, t1]
      · simp only [List.length_append, List.length_map]
        omega
      · have : l = l.take (l.length / 2) ++ l.drop (l.length / 2) := by simp
        conv_rhs => rw [this]
        rw [List.zipWith_append (by simpa using r2), List.sum_append, hsum, hsum, ← r3, ← s3, t2]
      · have hmem : ∀ r, r ∈ l.map v ↔ r ∈ (l.take (l.length / 2)).map v ∨ r ∈ (l.drop (l.length / 2)).map v := by
          intro r
          rw [← List.mem_append, ← List.map_append, List.take_append_drop]
        rw [isGcdOf_pair] at t3
        refine ⟨?_, ?_⟩
        · intro r hr
          rcases (hmem r).1 hr with hr | hr
          · exact t3.1.trans (r4.1 r hr)
          · exact t3.2.1.trans (s4.1 r hr)
        · intro d hd
          exact t3.2.2 d (r4.2 d fun r hr => hd r ((hmem r).2 (Or.inl hr)))
            (s4.2 d fun r hr => hd r ((hmem r).2 (Or.inr hr)))

end XgcdList

section Field
variable {α F : Type} [Field F] {S : DomainOps α} {v : α → F} (h : S.Models v)
include h

theorem DomainOps.Models.fieldFav : S.fieldFav.Models v where
  toDomain := h
  fav a := by
    by_cases ha : v a = 0
    · refine ⟨S.one, S.zero, by simp [DomainOps.fieldFav, (h.toSemi.isZero a).2 ha], by rw [h.one]; exact isUnit_one, ?_⟩
      rw [h.zero, ha, mul_zero]
    · refine ⟨a, S.one, by simp [DomainOps.fieldFav, (h.toSemi.isZero_false a).2 ha], isUnit_iff_ne_zero.2 ha, ?_⟩
      rw [h.one, mul_one]
  fav_zero a u w ha e := by
    simp only [DomainOps.fieldFav, (h.toSemi.isZero a).2 ha, if_true, Option.some.injEq, Prod.mk.injEq] at e
    rw [← e.1, h.one]
  fav_unit a u w ha e := by
    simp only [DomainOps.fieldFav, (h.toSemi.isZero_false a).2 ha.ne_zero, Option.some.injEq] at e
    simp only [Bool.false_eq_true, if_false, Prod.mk.injEq] at e
    rw [← e.2, h.one]
  fav_unique a b u w u' w' hab e e' := by
    by_cases ha : v a = 0
    · have hb : v b = 0 := by rw [ha] at hab; exact (associated_zero_iff_eq_zero _).1 hab.symm
      simp only [DomainOps.fieldFav, (h.toSemi.isZero a).2 ha, (h.toSemi.isZero b).2 hb, if_true, Option.some.injEq,
        Prod.mk.injEq] at e e'
      rw [← e.2, ← e'.2]
    · have hb : v b ≠ 0 := fun hb => ha (by rw [hb] at hab; exact (associated_zero_iff_eq_zero _).1 hab)
      simp only [DomainOps.fieldFav, (h.toSemi.isZero_false a).2 ha, (h.toSemi.isZero_false b).2 hb, Bool.false_eq_true,
        if_false, Option.some.injEq, Prod.mk.injEq] at e e'
      rw [← e.2, ← e'.2]

theorem DomainOps.Models.fieldEuc : S.fieldEuc.Models v where
  toFav := h.fieldFav
  norm a := by
    change (if S.isZero a = true then none else some 1) = none ↔ _
    rw [← h.toSemi.isZero a]
    split <;> simp_all
  norm_dvd a b n k _ e1 e2 := by
    change (if S.isZero a = true then none else some 1) = some n at e1
    change (if S.isZero b = true then none else some 1) = some k at e2
    split at e1 <;> split at e2 <;> simp_all
  quorem_zero a b hb := by
    change (if S.isZero b = true then _ else _) = _
    rw [if_pos ((h.toSemi.isZero b).2 hb)]
  quorem a b hb := by
    obtain ⟨q, h1, h2⟩ := h.div_unwrap a b hb ((isUnit_iff_ne_zero.2 hb).dvd)
    refine ⟨q, S.zero, ?_, by rw [h.zero, add_zero, h2], fun hh => absurd h.zero hh⟩
    change (if S.isZero b = true then _ else _) = _
    rw [if_neg (by rw [(h.toSemi.isZero_false b).2 hb]; simp), h1]
    rfl

end Field

end Verif.Rings
