import Verif.Proofs.Polynomial
import Mathlib.RingTheory.Polynomial.Content

namespace Verif.Rings

open Polynomial

section Domain
variable {α R : Type} [CommRing R] {S : DomainOps α} {v : α → R} (h : S.Models v)
include h

theorem DomainOps.Models.polySubShift (a b : List α) (qc : α) (i : Nat) :
    polyVal v (S.polySubShift a b qc i) = polyVal v a - C (v qc) * X ^ i * polyVal v b := by
  rw [RingOps.polySubShift, h.toSemi.polyAdd, h.toRing.polyNeg, h.toSemi.polyMulVarPow, h.toSemi.polyMulScalar]
  ring

theorem DomainOps.Models.polyQuoremLoop (b : List α) (hb : polyVal v b ≠ 0) (i : Nat) (q a : List α)
    (ha : ∀ j, i + (polyVal v b).natDegree ≤ j → (polyVal v a).coeff j = 0)
    (hq : ∀ j, j < i → v (q.getD j S.zero) = 0) (hi : i ≤ q.length) :
    (∃ q' r, S.polyQuoremLoop b ((polyVal v b).natDegree + 1) i q a = some (.ok (q', r)) ∧
      polyVal v q * polyVal v b + polyVal v a = polyVal v q' * polyVal v b + polyVal v r ∧
      ∀ j, (polyVal v b).natDegree ≤ j → (polyVal v r).coeff j = 0) ∨
    (S.polyQuoremLoop b ((polyVal v b).natDegree + 1) i q a = some (.error .notDivisible) ∧
      ¬ ∃ Q T, polyVal v a = Q * polyVal v b + T ∧ T.degree < (polyVal v b).degree) := by
  haveI := h.domain
  induction i generalizing q a with
  | zero =>
    left
    exact ⟨q, a, rfl, rfl, fun j hj => ha j (by omega)⟩
  | succ i ih =>
    have hidx : i + ((polyVal v b).natDegree + 1) - 1 = i + (polyVal v b).natDegree := by omega
    have hlc : v (S.polyCoeff b ((polyVal v b).natDegree + 1 - 1)) = (polyVal v b).leadingCoeff := by
      rw [h.toSemi.polyCoeff, Nat.add_sub_cancel]; rfl
    have hlc0 : (polyVal v b).leadingCoeff ≠ 0 := leadingCoeff_ne_zero.2 hb
    rw [DomainOps.polyQuoremLoop]
    rcases h.div_cases (S.polyCoeff a (i + ((polyVal v b).natDegree + 1) - 1)) (S.polyCoeff b ((polyVal v b).natDegree + 1 - 1))
      with ⟨h1, h2⟩ | ⟨h1, qc, h2, h3⟩ | ⟨h1, h2, h3⟩
    · rw [hlc] at h1; exact absurd h1 hlc0
    · rw [h2]
      simp only
      rw [hlc, h.toSemi.polyCoeff, hidx] at h3
      have hA := h.polySubShift a b qc i
      have hQ : polyVal v (q.set i qc) = polyVal v q + C (v qc) * X ^ i :=
        polyVal_set v q i qc (by omega) S.zero _ rfl (v qc) (by rw [hq i (by omega), zero_add])
      have hstep := ih (q.set i qc) (S.polySubShift a b qc i) ?_ ?_ (by simp; omega)
      · rcases hstep with ⟨q', r, g1, g2, g3⟩ | ⟨g1, g2⟩
        · left
          refine ⟨q', r, g1, ?_, g3⟩
          rw [← g2, hA, hQ]; ring
        · right
          refine ⟨g1, fun hex => g2 ?_⟩
          obtain ⟨Q, T, e1, e2⟩ := hex
          refine ⟨Q - C (v qc) * X ^ i, T, ?_, e2⟩
          rw [hA, e1]; ring
      · intro j hj
        rw [hA, coeff_sub, mul_assoc, coeff_C_mul, coeff_X_pow_mul']
        rw [if_pos (by omega)]
        by_cases hje : j = i + (polyVal v b).natDegree
        · subst hje
          rw [h3, Nat.add_sub_cancel_left]
          simp
        · rw [ha j (by omega), coeff_eq_zero_of_natDegree_lt (show (polyVal v b).natDegree < j - i by omega)]
          simp
      · intro j hj
        have e : (q.set i qc).getD j S.zero = q.getD j S.zero := by
          rw [List.getD_eq_getElem _ _ (by simp; omega), List.getD_eq_getElem _ _ (by omega),
            List.getElem_set_ne (by omega)]
        rw [e]; exact hq j (by omega)
    · rw [h3]
      right
      refine ⟨rfl, ?_⟩
      rintro ⟨Q, T, e1, e2⟩
      apply h2
      rw [hlc, h.toSemi.polyCoeff, hidx]
      have hT : ∀ j, (polyVal v b).natDegree ≤ j → T.coeff j = 0 := fun j hj =>
        coeff_eq_zero_of_degree_lt (lt_of_lt_of_le e2 (by rw [degree_eq_natDegree hb]; exact_mod_cast hj))
      by_cases hQ0 : Q = 0
      · rw [e1, hQ0, zero_mul, zero_add, hT _ (by omega)]; exact dvd_zero _
      have hQd : Q.natDegree ≤ i := by
        by_contra hc
        have h5 : (Q * polyVal v b).coeff (Q.natDegree + (polyVal v b).natDegree) ≠ 0 := by
          rw [coeff_mul_degree_add_degree]
          exact mul_ne_zero (leadingCoeff_ne_zero.2 hQ0) hlc0
        apply h5
        have := ha (Q.natDegree + (polyVal v b).natDegree) (by omega)
        rw [e1, coeff_add, hT _ (by omega), add_zero] at this
        exact this
      rw [e1, coeff_add, hT _ (by omega), add_zero]
      rcases Nat.lt_or_ge Q.natDegree i with hlt | hge
      · rw [coeff_eq_zero_of_natDegree_lt (lt_of_le_of_lt natDegree_mul_le (by omega))]; exact dvd_zero _
      · have : Q.natDegree = i := by omega
        rw [← this, coeff_mul_degree_add_degree]
        exact dvd_mul_left _ _

/-- Every outcome of `try_quorem`. -/
theorem DomainOps.Models.polyTryQuorem (a b : List α) :
    (polyVal v b = 0 ∧ S.polyTryQuorem a b = some (.error .divideByZero)) ∨
    (polyVal v b ≠ 0 ∧ ∃ q r, S.polyTryQuorem a b = some (.ok (q, r)) ∧
      polyVal v a = polyVal v q * polyVal v b + polyVal v r ∧ (polyVal v r).degree < (polyVal v b).degree) ∨
    (polyVal v b ≠ 0 ∧ S.polyTryQuorem a b = some (.error .notDivisible) ∧
      ¬ ∃ Q T, polyVal v a = Q * polyVal v b + T ∧ T.degree < (polyVal v b).degree) := by
  haveI := h.domain
  rw [DomainOps.polyTryQuorem]
  by_cases hb : polyVal v b = 0
  · left
    exact ⟨hb, by rw [if_pos ((h.toSemi.polyNumCoeffs_eq_zero b).2 hb)]⟩
  right
  rw [if_neg (fun e => hb ((h.toSemi.polyNumCoeffs_eq_zero b).1 e)), h.toSemi.polyNumCoeffs_ne b hb]
  have hlt (a : List α) (hlt : S.polyNumCoeffs a < (polyVal v b).natDegree + 1) :
      (polyVal v a).degree < (polyVal v b).degree := by
    by_cases hz : polyVal v a = 0
    · rw [hz, degree_zero, bot_lt_iff_ne_bot]; exact fun e => hb (degree_eq_bot.1 e)
    · rw [h.toSemi.polyNumCoeffs_ne a hz] at hlt
      exact natDegree_lt_natDegree_iff hz |>.1 (by omega)
  by_cases hm : S.polyNumCoeffs a < (polyVal v b).natDegree + 1
  · left
    exact ⟨hb, [], a, by rw [if_pos hm], by simp, hlt a hm⟩
  rw [if_neg hm]
  have hz : polyVal v a ≠ 0 := fun e => by rw [h.toSemi.polyNumCoeffs_zero a e] at hm; omega
  rw [h.toSemi.polyNumCoeffs_ne a hz] at hm ⊢
  rcases h.polyQuoremLoop b hb ((polyVal v a).natDegree + 1 - ((polyVal v b).natDegree + 1) + 1)
      (List.replicate ((polyVal v a).natDegree + 1 - ((polyVal v b).natDegree + 1) + 1) S.zero) a
      (fun j hj => coeff_eq_zero_of_natDegree_lt (by omega)) (fun j hj => by
        rw [List.getD_eq_getElem _ _ (by simpa using hj), List.getElem_replicate, h.zero]) (by simp)
    with ⟨q, r, g1, g2, g3⟩ | ⟨g1, g2⟩
  · left
    refine ⟨hb, q, r, g1, ?_, ?_⟩
    · rw [polyVal_replicate _ _ _ h.zero, zero_mul, zero_add] at g2; exact g2
    · rw [degree_eq_natDegree hb]; exact (degree_lt_iff_coeff_zero _ _).2 g3
  · right; exact ⟨hb, g1, g2⟩

omit h in
theorem decomp_unique [IsDomain R] {A B Q T Q' T' : R[X]} (h1 : A = Q * B + T) (h2 : T.degree < B.degree)
    (h3 : A = Q' * B + T') (h4 : T'.degree < B.degree) : Q = Q' ∧ T = T' := by
  have e : (Q - Q') * B = T' - T := by linear_combination h3 - h1
  have hd : (T' - T).degree < B.degree := lt_of_le_of_lt (degree_sub_le _ _) (max_lt h4 h2)
  have hq : Q - Q' = 0 := by
    by_contra hne
    rw [← e, degree_mul] at hd
    have h0 : (0 : WithBot ℕ) ≤ (Q - Q').degree := zero_le_degree_iff.2 hne
    have : B.degree ≤ (Q - Q').degree + B.degree := by
      calc B.degree = 0 + B.degree := (zero_add _).symm
        _ ≤ _ := by gcongr
    exact absurd hd (not_lt.2 this)
  rw [hq, zero_mul] at e
  exact ⟨sub_eq_zero.1 hq, (sub_eq_zero.1 e.symm).symm⟩

theorem DomainOps.Models.polyDiv_cases (a b : List α) :
    (polyVal v b = 0 ∧ S.polyDiv a b = some (.error .divideByZero)) ∨
    (polyVal v b ≠ 0 ∧ ∃ q, S.polyDiv a b = some (.ok q) ∧ polyVal v a = polyVal v q * polyVal v b) ∨
    (polyVal v b ≠ 0 ∧ ¬ polyVal v b ∣ polyVal v a ∧ S.polyDiv a b = some (.error .notDivisible)) := by
  haveI := h.domain
  rcases h.polyTryQuorem a b with ⟨h1, h2⟩ | ⟨h1, q, r, h2, h3, h4⟩ | ⟨h1, h2, h3⟩
  · exact Or.inl ⟨h1, by rw [DomainOps.polyDiv, h2]⟩
  · right
    have hc : S.polyEqual (S.polyAdd (S.polyMul q b) r) a = true := by
      rw [h.toSemi.polyEqual, h.toSemi.polyAdd, h.toSemi.polyMul, h3]
    by_cases hr : polyVal v r = 0
    · left
      refine ⟨h1, q, ?_, by rw [h3, hr, add_zero]⟩
      rw [DomainOps.polyDiv, h2]
      simp only
      rw [DomainOps.polyDivCheck, if_pos hc, if_pos ((h.toSemi.poly.isZero r).2 hr)]
    · right
      refine ⟨h1, ?_, ?_⟩
      · rintro ⟨d, hd⟩
        apply hr
        refine (decomp_unique h3 h4 (Q' := d) (T' := 0) (by rw [hd]; ring) ?_).2
        rw [degree_zero, bot_lt_iff_ne_bot]; exact fun e => h1 (degree_eq_bot.1 e)
      · rw [DomainOps.polyDiv, h2]
        simp only
        rw [DomainOps.polyDivCheck, if_pos hc, if_neg (fun e => hr ((h.toSemi.poly.isZero r).1 e))]
  · right; right
    refine ⟨h1, ?_, by rw [DomainOps.polyDiv, h2]⟩
    rintro ⟨d, hd⟩
    refine h3 ⟨d, 0, by rw [hd]; ring, ?_⟩
    rw [degree_zero, bot_lt_iff_ne_bot]; exact fun e => h1 (degree_eq_bot.1 e)

/-- Polynomials over an integral domain present the domain `R[X]`. -/
theorem DomainOps.Models.poly : S.poly.Models (polyVal v) where
  toRing := h.toRing.poly
  domain := by haveI := h.domain; infer_instance
  div_zero a b hb := by
    rcases h.polyDiv_cases a b with ⟨_, h2⟩ | ⟨h1, -⟩ | ⟨h1, -⟩
    · exact h2
    · exact absurd hb h1
    · exact absurd hb h1
  div_ok a b hb hd := by
    rcases h.polyDiv_cases a b with ⟨h1, h2⟩ | ⟨-, h2⟩ | ⟨-, h2, -⟩
    · exact absurd h1 hb
    · exact h2
    · exact absurd hd h2
  div_not a b hb hd := by
    rcases h.polyDiv_cases a b with ⟨h1, h2⟩ | ⟨-, q, -, h2⟩ | ⟨-, -, h2⟩
    · exact absurd h1 hb
    · exact absurd ⟨_, h2.trans (mul_comm _ _)⟩ hd
    · exact h2

omit h in
/-- Pseudo-division. -/
theorem pseudo_division (A B : R[X]) (hB : B ≠ 0) (k : Nat) (hA : ∀ j, k + B.natDegree ≤ j → A.coeff j = 0) :
    ∃ Q T, C (B.leadingCoeff ^ k) * A = Q * B + T ∧ T.degree < B.degree := by
  induction k generalizing A with
  | zero =>
    refine ⟨0, A, by simp, ?_⟩
    rw [degree_eq_natDegree hB]; exact (degree_lt_iff_coeff_zero _ _).2 fun j hj => hA j (by omega)
  | succ k ih =>
    obtain ⟨Q, T, h1, h2⟩ := ih (C B.leadingCoeff * A - C (A.coeff (k + B.natDegree)) * X ^ k * B) (by
      intro j hj
      rw [coeff_sub, coeff_C_mul, mul_assoc, coeff_C_mul, coeff_X_pow_mul', if_pos (by omega)]
      by_cases hje : j = k + B.natDegree
      · subst hje
        rw [Nat.add_sub_cancel_left, coeff_natDegree]; ring
      · rw [hA j (by omega), coeff_eq_zero_of_natDegree_lt (show B.natDegree < j - k by omega)]; simp)
    refine ⟨Q + C (B.leadingCoeff ^ k) * C (A.coeff (k + B.natDegree)) * X ^ k, T, ?_, h2⟩
    rw [pow_succ, C_mul]
    linear_combination h1

theorem DomainOps.Models.polyPremUnwrap (a b : List α) (hb : polyVal v b ≠ 0) (ha : polyVal v a ≠ 0)
    (hd : (polyVal v b).natDegree ≤ (polyVal v a).natDegree) :
    ∃ r, S.polyPseudorem a b = some (.ok r) ∧ S.polyPremUnwrap a b = some r ∧ (polyVal v r).degree < (polyVal v b).degree ∧
      ∃ Q, C ((polyVal v b).leadingCoeff ^ ((polyVal v a).natDegree - (polyVal v b).natDegree + 1)) * polyVal v a
        = Q * polyVal v b + polyVal v r := by
  haveI := h.domain
  have e1 : S.polyPseudorem a b
      = (quoremRem (S.polyTryQuorem (S.polyMul a (polyConst (S.natPow (S.polyCoeff b ((polyVal v b).natDegree))
          ((polyVal v a).natDegree - (polyVal v b).natDegree + 1)))) b)).map PseudoRem.ok := by
    rw [DomainOps.polyPseudorem, if_neg (fun e => hb ((h.toSemi.polyNumCoeffs_eq_zero b).1 e)),
      h.toSemi.polyNumCoeffs_ne b hb, h.toSemi.polyNumCoeffs_ne a ha, if_neg (by omega)]
    have : (polyVal v a).natDegree + 1 - ((polyVal v b).natDegree + 1) + 1
      = (polyVal v a).natDegree - (polyVal v b).natDegree + 1 := by omega
    rw [this, Nat.add_sub_cancel]
  have e2 : polyVal v (S.polyMul a (polyConst (S.natPow (S.polyCoeff b ((polyVal v b).natDegree))
          ((polyVal v a).natDegree - (polyVal v b).natDegree + 1))))
      = C ((polyVal v b).leadingCoeff ^ ((polyVal v a).natDegree - (polyVal v b).natDegree + 1)) * polyVal v a := by
    rw [h.toSemi.polyMul, polyVal_const, h.toSemi.natPow, h.toSemi.polyCoeff, mul_comm]; rfl
  obtain ⟨Q, T, g1, g2⟩ := pseudo_division (polyVal v a) (polyVal v b) hb
    ((polyVal v a).natDegree - (polyVal v b).natDegree + 1) (fun j hj => coeff_eq_zero_of_natDegree_lt (by omega))
  rcases h.polyTryQuorem (S.polyMul a (polyConst (S.natPow (S.polyCoeff b ((polyVal v b).natDegree))
          ((polyVal v a).natDegree - (polyVal v b).natDegree + 1)))) b with ⟨h1, h2⟩ | ⟨h1, q, r, h2, h3, h4⟩ | ⟨h1, h2, h3⟩
  · exact absurd h1 hb
  · have e3 : S.polyPseudorem a b = some (.ok r) := by rw [e1, h2]; rfl
    refine ⟨r, e3, by rw [DomainOps.polyPremUnwrap, e3]; rfl, h4, polyVal v q, ?_⟩
    rw [← e2, h3]
  · exact absurd ⟨Q, T, by rw [e2, g1], g2⟩ h3

theorem DomainOps.Models.polyDivCoeffs (a : List α) (u : α) (hu : v u ≠ 0) (hd : ∀ c ∈ a, v u ∣ v c) :
    ∃ a', S.polyDivCoeffs a u = some a' ∧ a'.length = a.length ∧ polyVal v a = C (v u) * polyVal v a' := by
  induction a with
  | nil => exact ⟨[], rfl, rfl, by simp⟩
  | cons c a ih =>
    obtain ⟨a', h1, hl, h2⟩ := ih (fun x hx => hd x (List.mem_cons_of_mem _ hx))
    obtain ⟨q, h3, h4⟩ := h.div_unwrap c u hu (hd c List.mem_cons_self)
    refine ⟨q :: a', ?_, by simp [hl], ?_⟩
    · rw [DomainOps.polyDivCoeffs] at h1 ⊢
      rw [List.mapM_cons, h3, h1]; rfl
    · rw [polyVal_cons, polyVal_cons, h2, h4, C_mul]; ring

omit h in
theorem mem_coeff (v : α → R) (p : List α) (c : α) (hc : c ∈ p) : ∃ i, (polyVal v p).coeff i = v c := by
  obtain ⟨i, hi, rfl⟩ := List.getElem_of_mem hc
  exact ⟨i, coeff_polyVal_lt v p i hi⟩

theorem DomainOps.Models.dvd_coeffs_iff (p : List α) (u : R) : (∀ c ∈ p, u ∣ v c) ↔ C u ∣ polyVal v p := by
  rw [C_dvd_iff_dvd_coeff]
  constructor
  · intro hh i
    by_cases hi : i < p.length
    · rw [coeff_polyVal_lt _ _ _ hi]; exact hh _ (List.getElem_mem hi)
    · rw [coeff_polyVal_ge _ _ _ (by omega)]; exact dvd_zero _
  · intro hh c hc
    obtain ⟨i, hi⟩ := mem_coeff v p c hc
    rw [← hi]; exact hh i

end Domain

section Fav
variable {α R : Type} [CommRing R] {S : FavOps α} {v : α → R} (h : S.Models v)
include h

theorem FavOps.Models.polyFactorFavAssoc_ne (a : List α) (ha : polyVal v a ≠ 0) :
    ∃ l u c w, v l = (polyVal v a).leadingCoeff ∧ S.factorFavAssoc l = some (u, c) ∧ IsUnit (v u) ∧
      v l = v u * v c ∧ S.polyFactorFavAssoc a = some (polyConst u, w) ∧ polyVal v a = C (v u) * polyVal v w := by
  haveI := h.domain
  obtain ⟨u, c, h1, h2, h3⟩ := h.fav (a.getD (polyVal v a).natDegree S.zero)
  obtain ⟨w, g1, -, g2⟩ := h.toDomain.polyDivCoeffs a u h2.ne_zero (fun x _ => h2.dvd)
  refine ⟨_, u, c, w, ?_, h1, h2, h3, ?_, g2⟩
  · rw [← coeff_polyVal v S.zero h.zero]; rfl
  · rw [FavOps.polyFactorFavAssoc, if_neg (fun e => ha ((h.toSemi.poly.isZero a).1 e)), h.toSemi.polyNumCoeffs_ne a ha,
      Nat.add_sub_cancel, h1]
    simp only [Option.bind_eq_bind, Option.bind_some, g1]

theorem FavOps.Models.polyFactorFavAssoc_zero (a : List α) (ha : polyVal v a = 0) :
    S.polyFactorFavAssoc a = some ([S.one], []) := by
  rw [FavOps.polyFactorFavAssoc, if_pos ((h.toSemi.poly.isZero a).2 ha)]

/-- The second component of `factor_fav_assoc` has the favourite associate of the leading coefficient in front. -/
theorem FavOps.Models.poly : S.poly.Models (polyVal v) where
  toDomain := h.toDomain.poly
  fav a := by
    by_cases ha : polyVal v a = 0
    · exact ⟨[S.one], [], h.polyFactorFavAssoc_zero a ha, by simp [h.one], by simp [ha]⟩
    · obtain ⟨l, u, c, w, h1, h2, h3, h4, h5, h6⟩ := h.polyFactorFavAssoc_ne a ha
      exact ⟨_, w, h5, by rw [polyVal_const]; exact h3.map C, by rw [polyVal_const, h6]⟩
  fav_zero a u w ha e := by
    rw [show S.poly.factorFavAssoc a = S.polyFactorFavAssoc a from rfl, h.polyFactorFavAssoc_zero a ha] at e
    simp only [Option.some.injEq, Prod.mk.injEq] at e
    rw [← e.1]; simp [h.one]
  fav_unit a u w ha e := by
    haveI := h.domain
    obtain ⟨l, u', c, w', h1, h2, h3, h4, h5, h6⟩ := h.polyFactorFavAssoc_ne a ha.ne_zero
    rw [show S.poly.factorFavAssoc a = S.polyFactorFavAssoc a from rfl, h5] at e
    simp only [Option.some.injEq, Prod.mk.injEq] at e
    obtain ⟨rfl, rfl⟩ := e
    obtain ⟨r, hr, hr'⟩ := isUnit_iff.1 ha
    rw [← hr', leadingCoeff_C] at h1
    have hc : v c = 1 := h.fav_unit l u' c (by rw [h1]; exact hr) h2
    rw [← hr', ← h1, h4, hc, mul_one] at h6
    have hu : (C (v u') : R[X]) ≠ 0 := by rw [Ne, C_eq_zero]; exact h3.ne_zero
    exact (mul_left_cancel₀ hu (by rw [← h6, mul_one])).symm
  fav_unique a b u w u' w' hab e e' := by
    haveI := h.domain
    by_cases ha : polyVal v a = 0
    · have hb : polyVal v b = 0 := by rw [ha] at hab; exact (associated_zero_iff_eq_zero _).1 hab.symm
      rw [show S.poly.factorFavAssoc a = S.polyFactorFavAssoc a from rfl, h.polyFactorFavAssoc_zero a ha] at e
      rw [show S.poly.factorFavAssoc b = S.polyFactorFavAssoc b from rfl, h.polyFactorFavAssoc_zero b hb] at e'
      simp only [Option.some.injEq, Prod.mk.injEq] at e e'
      rw [← e.2, ← e'.2]
    · have hb : polyVal v b ≠ 0 := fun hb => ha (by rw [hb] at hab; exact (associated_zero_iff_eq_zero _).1 hab)
      obtain ⟨l, u₁, c, w₁, h1, h2, h3, h4, h5, h6⟩ := h.polyFactorFavAssoc_ne a ha
      obtain ⟨l', u₂, c', w₂, h1', h2', h3', h4', h5', h6'⟩ := h.polyFactorFavAssoc_ne b hb
      rw [show S.poly.factorFavAssoc a = S.polyFactorFavAssoc a from rfl, h5] at e
      rw [show S.poly.factorFavAssoc b = S.polyFactorFavAssoc b from rfl, h5'] at e'
      simp only [Option.some.injEq, Prod.mk.injEq] at e e'
      obtain ⟨-, rfl⟩ := e
      obtain ⟨-, rfl⟩ := e'
      obtain ⟨ε, hε⟩ := hab
      obtain ⟨r, hr, hr'⟩ := isUnit_iff.1 ε.isUnit
      have hlc : (polyVal v b).leadingCoeff = (polyVal v a).leadingCoeff * r := by
        rw [← hε, ← hr', leadingCoeff_mul, leadingCoeff_C]
      have hc : v c = v c' := h.fav_unique l l' u₁ c u₂ c' (by
        rw [h1, h1', hlc]; exact (associated_mul_unit_right _ _ hr)) h2 h2'
      have hc0 : v c ≠ 0 := by
        intro e0
        rw [e0, mul_zero] at h4
        exact ha (leadingCoeff_eq_zero.1 (by rw [← h1, h4]))
      have hu : v u₂ = v u₁ * r := by
        apply mul_right_cancel₀ hc0
        have : v l' = v l * r := by rw [h1, h1', hlc]
        rw [h4, h4', ← hc] at this
        rw [this]; ring
      have hu0 : (C (v u₂) : R[X]) ≠ 0 := by rw [Ne, C_eq_zero]; exact h3'.ne_zero
      apply mul_left_cancel₀ hu0
      rw [← h6', ← hε, ← hr', h6, hu, C_mul]; ring

end Fav

section Gcd
variable {α R : Type} [CommRing R] {S : GcdOps α} {v : α → R} (h : S.Models v)
include h

/-- `factor_primitive` of a nonzero polynomial: content and primitive part. -/
theorem GcdOps.Models.polyFactorPrimitive (p : List α) (hp : polyVal v p ≠ 0) :
    ∃ g p', S.polyFactorPrimitive p = some (some (g, p')) ∧ v g ≠ 0 ∧ S.IsFav v (v g) ∧ polyVal v p = C (v g) * polyVal v p' ∧
      (polyVal v p').IsPrimitive ∧ p'.length = p.length := by
  haveI := h.domain
  obtain ⟨g, h1, h2, h3⟩ := h.gcdList p
  have hd : ∀ c ∈ p, v g ∣ v c := fun c hc => h2.1 _ (by simpa using ⟨c, hc, rfl⟩)
  have hg : v g ≠ 0 := by
    intro e
    apply hp
    have := (h.toDomain.dvd_coeffs_iff p (v g)).1 hd
    rw [e, C_0] at this
    exact zero_dvd_iff.1 this
  obtain ⟨p', g1, gl, g2⟩ := h.toDomain.polyDivCoeffs p g hg hd
  refine ⟨g, p', ?_, hg, h3, g2, ?_, gl⟩
  · rw [GcdOps.polyFactorPrimitive, if_neg (fun e => hp ((h.toSemi.poly.isZero p).1 e)), h1]
    simp only [Option.bind_eq_bind, Option.bind_some, g1]
  · intro r hr
    have : v g * r ∣ v g := by
      apply h2.2
      intro x hx
      obtain ⟨c, hc, rfl⟩ := by simpa using hx
      refine (h.toDomain.dvd_coeffs_iff p _).2 ?_ c hc
      rw [g2, C_mul]; exact mul_dvd_mul_left _ hr
    obtain ⟨s, hs⟩ := this
    exact IsUnit.of_mul_eq_one s (mul_left_cancel₀ hg (by rw [mul_one, ← mul_assoc, ← hs]))

theorem GcdOps.Models.polyFactorPrimitive_zero (p : List α) (hp : polyVal v p = 0) :
    S.polyFactorPrimitive p = some none := by
  rw [GcdOps.polyFactorPrimitive, if_pos ((h.toSemi.poly.isZero p).2 hp)]

theorem GcdOps.Models.polyFactorPrimitiveUnwrap (p : List α) (hp : polyVal v p ≠ 0) :
    ∃ g p', S.polyFactorPrimitiveUnwrap p = some (g, p') ∧ v g ≠ 0 ∧ S.IsFav v (v g) ∧ polyVal v p = C (v g) * polyVal v p' ∧
      (polyVal v p').IsPrimitive ∧ p'.length = p.length := by
  obtain ⟨g, p', h1, h2⟩ := h.polyFactorPrimitive p hp
  exact ⟨g, p', by rw [GcdOps.polyFactorPrimitiveUnwrap, h1]; rfl, h2⟩

theorem GcdOps.Models.polyIsPrimitive (p : List α) (hp : polyVal v p ≠ 0) :
    S.polyIsPrimitive p = some (@decide (polyVal v p).IsPrimitive (Classical.propDecidable _)) := by
  haveI := h.domain
  obtain ⟨g, p', h1, h2, h3, h4, h5, -⟩ := h.polyFactorPrimitive p hp
  rw [GcdOps.polyIsPrimitive, h1]
  simp only [Option.bind_some]
  rw [h.toDomain.isUnit]
  congr 1
  rw [decide_eq_decide]
  constructor
  · intro hu
    rw [h4]
    intro r hr
    exact h5 r ((IsUnit.dvd_mul_left (hu.map C)).1 hr)
  · intro hpr
    exact hpr _ (Dvd.intro _ h4.symm)

end Gcd

section Field
variable {α F : Type} [Field F] {S : DomainOps α} {v : α → F} (h : S.Models v)
include h

/-- Polynomials over a field are a Euclidean domain, and the code's division is a division with remainder. -/
theorem DomainOps.Models.polyEuc : S.polyEuc.Models (polyVal v) where
  toFav := h.fieldFav.poly
  norm a := by
    change S.polyDegree a = none ↔ _
    by_cases ha : polyVal v a = 0
    · simp [h.toSemi.polyDegree_none a ha, ha]
    · simp [h.toSemi.polyDegree_some a ha, ha]
  norm_dvd a b n k hab e1 e2 := by
    change S.polyDegree a = some n at e1
    change S.polyDegree b = some k at e2
    have ha : polyVal v a ≠ 0 := fun e => by rw [h.toSemi.polyDegree_none a e] at e1; cases e1
    have hb : polyVal v b ≠ 0 := fun e => by rw [h.toSemi.polyDegree_none b e] at e2; cases e2
    rw [h.toSemi.polyDegree_some a ha] at e1
    rw [h.toSemi.polyDegree_some b hb] at e2
    have := natDegree_le_of_dvd hab hb
    injections; omega
  quorem_zero a b hb := by
    change (S.polyTryQuorem a b).bind quoremOrNone = _
    rcases h.polyTryQuorem a b with ⟨_, h2⟩ | ⟨h1, -⟩ | ⟨h1, -⟩
    · rw [h2]; rfl
    · exact absurd hb h1
    · exact absurd hb h1
  quorem a b hb := by
    change ∃ q r, (S.polyTryQuorem a b).bind quoremOrNone = _ ∧ _ ∧ (_ → ∃ n m, S.polyDegree r = some n ∧ S.polyDegree b = some m ∧ _)
    rcases h.polyTryQuorem a b with ⟨h1, h2⟩ | ⟨h1, q, r, h2, h3, h4⟩ | ⟨h1, h2, h3⟩
    · exact absurd h1 hb
    · refine ⟨q, r, by rw [h2]; rfl, h3, fun hr => ⟨_, _, h.toSemi.polyDegree_some r hr, h.toSemi.polyDegree_some b hb, ?_⟩⟩
      exact (natDegree_lt_natDegree_iff hr).2 h4
    · exact absurd ⟨polyVal v a / polyVal v b, polyVal v a % polyVal v b,
        by rw [mul_comm]; exact (EuclideanDomain.div_add_mod _ _).symm, EuclideanDomain.mod_lt _ hb⟩ h3

end Field
end Verif.Rings
