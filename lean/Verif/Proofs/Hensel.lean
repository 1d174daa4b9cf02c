import Verif.Spec.Hensel
import Verif.Proofs.PolyQuotient
import Mathlib.Algebra.Polynomial.Div
import Mathlib.RingTheory.PrincipalIdealDomain

/-!
# Hensel lifting: congruences and one lifting step
-/

namespace Verif.Rings

open Polynomial

section Cong
variable {R : Type} [CommRing R]

theorem congMod_iff {m : R} {A B : R[X]} : CongMod m A B ↔ C m ∣ A - B := by
  rw [C_dvd_iff_dvd_coeff]; simp only [coeff_sub]; rfl

theorem CongMod.refl (m : R) (A : R[X]) : CongMod m A A := fun k => by simp

theorem CongMod.symm {m : R} {A B : R[X]} (h : CongMod m A B) : CongMod m B A := fun k => by
  rw [← neg_sub]; exact (dvd_neg).2 (h k)

theorem CongMod.trans {m : R} {A B D : R[X]} (h : CongMod m A B) (h' : CongMod m B D) : CongMod m A D := fun k => by
  have := dvd_add (h k) (h' k)
  rwa [sub_add_sub_cancel] at this

theorem CongMod.add {m : R} {A B A' B' : R[X]} (h : CongMod m A B) (h' : CongMod m A' B') :
    CongMod m (A + A') (B + B') := by
  rw [congMod_iff] at *
  have := dvd_add h h'
  rwa [sub_add_sub_comm] at this

theorem CongMod.mul {m : R} {A B A' B' : R[X]} (h : CongMod m A B) (h' : CongMod m A' B') :
    CongMod m (A * A') (B * B') := by
  rw [congMod_iff] at *
  have : A * A' - B * B' = (A - B) * A' + B * (A' - B') := by ring
  rw [this]
  exact dvd_add (h.mul_right _) (h'.mul_left _)

theorem CongMod.mono {m m' : R} {A B : R[X]} (h : CongMod m A B) (hm : m' ∣ m) : CongMod m' A B :=
  fun k => hm.trans (h k)

theorem CongMod.list_prod {m : R} {l l' : List R[X]} (h : List.Forall₂ (CongMod m) l l') : CongMod m l.prod l'.prod := by
  induction h with
  | nil => exact .refl _ _
  | cons h _ ih => simpa using h.mul ih

theorem map_mk_eq_iff (m : R) (A B : R[X]) :
    A.map (Ideal.Quotient.mk (Ideal.span {m})) = B.map (Ideal.Quotient.mk (Ideal.span {m})) ↔ CongMod m A B := by
  rw [Polynomial.ext_iff]
  simp only [coeff_map, quot_eq_iff]
  rfl

theorem polyVal_comp {α R' : Type} [CommRing R'] (φ : R →+* R') (v : α → R) (L : List α) :
    polyVal (fun a => φ (v a)) L = (polyVal v L).map φ := by
  induction L with
  | nil => simp [polyVal]
  | cons c L ih => simp [polyVal, ih]

theorem degree_C_mul_le' (c : R) (A : R[X]) : (C c * A).degree ≤ A.degree := by
  rw [C_mul']; exact degree_smul_le c A

/-- a multiple of `m` divided by a monic polynomial has a quotient and a remainder divisible by `m` -/
theorem monic_division_dvd [Nontrivial R] {m : R} {A D Q T : R[X]} (hD : D.Monic) (e : A = Q * D + T) (hT : T.degree < D.degree)
    (hA : C m ∣ A) : C m ∣ Q ∧ C m ∣ T := by
  obtain ⟨A', rfl⟩ := hA
  have h1 : C m * A' = (C m * (A' /ₘ D)) * D + C m * (A' %ₘ D) := by
    conv_lhs => rw [← modByMonic_add_div A' D]
    ring
  have hdeg : (C m * (A' %ₘ D)).degree < D.degree :=
    lt_of_le_of_lt (degree_C_mul_le' _ _) (degree_modByMonic_lt _ hD)
  have u1 : (C m * A') /ₘ D = Q ∧ (C m * A') %ₘ D = T := div_modByMonic_unique Q T hD ⟨by rw [e]; ring, hT⟩
  have u2 : (C m * A') /ₘ D = C m * (A' /ₘ D) ∧ (C m * A') %ₘ D = C m * (A' %ₘ D) :=
    div_modByMonic_unique _ _ hD ⟨by rw [add_comm, mul_comm D]; exact h1.symm, hdeg⟩
  rw [← u1.1, ← u1.2, u2.1, u2.2]
  exact ⟨dvd_mul_right _ _, dvd_mul_right _ _⟩

theorem natDegree_of_cong [IsDomain R] {m : R} {H F : R[X]} (hF : F.Monic) (α : R)
    (hα : α = H.leadingCoeff) (hm : ¬ m ∣ α) (hc : CongMod m H (C α * F)) : H.natDegree = F.natDegree := by
  have h0 : α ≠ 0 := fun e => hm (e ▸ dvd_zero m)
  rcases lt_trichotomy H.natDegree F.natDegree with hlt | he | hgt
  · exfalso
    have := hc F.natDegree
    rw [coeff_eq_zero_of_natDegree_lt hlt, coeff_C_mul, hF.coeff_natDegree, mul_one, zero_sub, dvd_neg] at this
    exact hm this
  · exact he
  · exfalso
    have := hc H.natDegree
    rw [coeff_C_mul, coeff_eq_zero_of_natDegree_lt hgt, mul_zero, sub_zero, coeff_natDegree, ← hα] at this
    exact hm this

end Cong

section
variable {α R : Type} [CommRing R] {S : EucOps α} {v : α → R} (h : S.Models v)
include h

theorem EucOps.Models.newRing (m : α) (hm : v m ≠ 0) : S.newRing m = some (S.quotientRing m) := by
  unfold EucOps.newRing
  simp only [(h.toSemi.isZero_false m).2 hm, assertThat, Bool.not_false, if_true, Option.bind_eq_bind, Option.bind_some]

theorem EucOps.Models.quotientPoly (m : α) (hm : v m ≠ 0) :
    (S.quotientRing m).poly.Models (fun L => (polyVal v L).map (Ideal.Quotient.mk (Ideal.span {v m}))) := by
  have := (h.quotientRing m hm).poly
  have e : polyVal (fun a => Ideal.Quotient.mk (Ideal.span {v m}) (v a))
      = fun L => (polyVal v L).map (Ideal.Quotient.mk (Ideal.span {v m})) := funext fun L => polyVal_comp _ _ L
  rw [e] at this
  exact this

theorem EucOps.Models.quotientPoly_equal (m : α) (hm : v m ≠ 0) (L L' : List α) :
    (S.quotientRing m).poly.equal L L' = true ↔ CongMod (v m) (polyVal v L) (polyVal v L') := by
  rw [(h.quotientPoly m hm).equal, map_mk_eq_iff]

theorem EucOps.Models.bezoutOk (m : α) (hm : v m ≠ 0) (a f b g : List α) :
    (S.quotientRing m).poly.bezoutOk a f b g = true ↔
      CongMod (v m) (polyVal v a * polyVal v f + polyVal v b * polyVal v g) 1 := by
  have hP := h.quotientPoly m hm
  unfold RingOps.bezoutOk
  rw [hP.toSemi.isZero, hP.toSemi.sum, ← map_mk_eq_iff]
  simp only [List.map_cons, List.map_nil, List.sum_cons, List.sum_nil, hP.mul, hP.neg, hP.one]
  rw [Polynomial.map_add, Polynomial.map_mul, Polynomial.map_mul, Polynomial.map_one, add_zero, ← add_assoc, ← sub_eq_add_neg, sub_eq_zero]

theorem EucOps.Models.quotientPoly_product3 (m : α) (hm : v m ≠ 0) (al : α) (hh f g : List α) :
    (S.quotientRing m).poly.equal hh ((S.quotientRing m).poly.product [polyConst al, f, g]) = true ↔
      CongMod (v m) (polyVal v hh) (C (v al) * polyVal v f * polyVal v g) := by
  have hP := h.quotientPoly m hm
  rw [hP.equal, hP.toSemi.product, ← map_mk_eq_iff]
  simp only [List.map_cons, List.map_nil, List.prod_cons, List.prod_nil, polyVal_const, mul_one, Polynomial.map_mul, mul_assoc]

theorem EucOps.Models.polyRemAll (m : α) (p : List α) :
    S.polyRemAll m p = some (p.map (S.reduce m)) := by
  refine mapM_eq_map p fun c _ => ?_
  obtain ⟨r, h1, -⟩ := h.rem c m
  rw [EucOps.reduce, h1]; rfl

theorem EucOps.Models.polyVal_reduce (m : α) (hm : v m ≠ 0) (p : List α) :
    CongMod (v m) (polyVal v (p.map (S.reduce m))) (polyVal v p) ∧
    (∀ k, v m ∣ (polyVal v p).coeff k → (polyVal v (p.map (S.reduce m))).coeff k = 0) := by
  have key : ∀ k, (polyVal v (p.map (S.reduce m))).coeff k = if hk : k < p.length then v (S.reduce m p[k]) else 0 := by
    intro k
    split
    · rename_i hk
      rw [coeff_polyVal_lt v _ k (by simpa using hk), List.getElem_map]
    · rename_i hk
      rw [coeff_polyVal_ge v _ k (by simpa using hk)]
  refine ⟨fun k => ?_, fun k hd => ?_⟩
  · rw [key]
    split
    · rename_i hk
      rw [coeff_polyVal_lt v _ k hk, ← neg_sub, dvd_neg]
      exact h.reduce m _
    · rename_i hk
      rw [coeff_polyVal_ge v _ k (by omega)]; simp
  · rw [key]
    split
    · rename_i hk
      rw [coeff_polyVal_lt v _ k hk] at hd
      exact (h.reduce_zero m _ hm).2 hd
    · rfl

theorem EucOps.Models.polyVal_reduce_monic (m : α) (hm : v m ≠ 0) (hone : ∀ x, v x = 1 → v (S.reduce m x) = 1)
    (p : List α) (hp : (polyVal v p).Monic) :
    (polyVal v (p.map (S.reduce m))).Monic ∧ (polyVal v (p.map (S.reduce m))).natDegree = (polyVal v p).natDegree := by
  haveI := h.domain
  have h1 : (polyVal v (p.map (S.reduce m))).coeff (polyVal v p).natDegree = 1 := by
    have hk : (polyVal v p).natDegree < p.length := polyVal_natDegree_lt p hp.ne_zero
    rw [coeff_polyVal_lt v _ _ (by simpa using hk), List.getElem_map]
    apply hone
    rw [← coeff_polyVal_lt v p _ hk]; exact hp
  have h2 : (polyVal v (p.map (S.reduce m))).natDegree ≤ (polyVal v p).natDegree := by
    rw [natDegree_le_iff_coeff_eq_zero]
    intro N hN
    exact (h.polyVal_reduce m hm p).2 N (by rw [coeff_eq_zero_of_natDegree_lt hN]; exact dvd_zero _)
  have h3 : (polyVal v (p.map (S.reduce m))).natDegree = (polyVal v p).natDegree :=
    le_antisymm h2 (le_natDegree_of_ne_zero (by rw [h1]; exact one_ne_zero))
  exact ⟨by rw [Monic, leadingCoeff, h3, h1], h3⟩

theorem EucOps.Models.quoremMonic (a b : List α) (hb : (polyVal v b).Monic) :
    ∃ q r, unwrapQuorem (S.polyTryQuorem a b) = some (q, r) ∧
      polyVal v a = polyVal v q * polyVal v b + polyVal v r ∧ (polyVal v r).degree < (polyVal v b).degree := by
  haveI := h.domain
  rcases h.toDomain.polyTryQuorem a b with ⟨h1, -⟩ | ⟨-, q, r, h2, h3, h4⟩ | ⟨-, -, h3⟩
  · exact absurd h1 hb.ne_zero
  · exact ⟨q, r, by rw [h2]; rfl, h3, h4⟩
  · refine absurd ⟨polyVal v a /ₘ polyVal v b, polyVal v a %ₘ polyVal v b, ?_, degree_modByMonic_lt _ hb⟩ h3
    conv_lhs => rw [← modByMonic_add_div (polyVal v a) (polyVal v b)]
    ring

theorem EucOps.Models.xgcd_coprime (x y : α) (hc : IsCoprime (v x) (v y)) :
    ∃ g a b, S.euclideanXgcd x y = some (g, a, b) ∧ S.equal g S.one = true ∧ v a * v x + v b * v y = 1 := by
  haveI := h.domain
  obtain ⟨g, a, b, e1, e2, e3, e4⟩ := h.euclideanXgcd x y
  have hu : IsUnit (v g) := by
    rw [isGcdOf_pair] at e3
    exact hc.isUnit_of_dvd' e3.1 e3.2.1
  have hg : v g = 1 := by
    obtain ⟨u, w, f1, f2, f3⟩ := h.fav g
    have := h.fav_unit g u w hu f1
    rw [← e4 g u w rfl f1, this]
  exact ⟨g, a, b, e1, (h.equal _ _).2 (by rw [hg, h.one]), by rw [← e2, hg]⟩

/-- One lifting step. -/
theorem EucOps.Models.computeLift (i : α) (n : Nat) (hn : 0 < n) (a b f g hh : List α) (hi0 : v i ≠ 0) (hiu : ¬ IsUnit (v i))
    (hα : IsCoprime (polyVal v hh).leadingCoeff (v i)) (hf : (polyVal v f).Monic) (hg : (polyVal v g).Monic)
    (hd : 0 < (polyVal v hh).natDegree)
    (hc : CongMod (v i ^ n) (polyVal v hh) (C (polyVal v hh).leadingCoeff * polyVal v f * polyVal v g))
    (hb : CongMod (v i) (polyVal v a * polyVal v f + polyVal v b * polyVal v g) 1)
    (hone : ∀ x, v x = 1 → v (S.reduce (S.natPow i (n + 1)) x) = 1) :
    ∃ t, S.computeLift i n a b f g hh = some t ∧ (polyVal v t.f).Monic ∧ (polyVal v t.g).Monic ∧
      CongMod (v i ^ n) (polyVal v t.f) (polyVal v f) ∧ CongMod (v i ^ n) (polyVal v t.g) (polyVal v g) ∧
      CongMod (v i ^ (n + 1)) (polyVal v t.f) (polyVal v f + polyVal v t.deltaF) ∧
      CongMod (v i ^ (n + 1)) (polyVal v t.g) (polyVal v g + polyVal v t.deltaG) ∧
      CongMod (v i ^ n) (polyVal v t.deltaF) 0 ∧ CongMod (v i ^ n) (polyVal v t.deltaG) 0 ∧
      (polyVal v t.f).natDegree = (polyVal v f).natDegree ∧ (polyVal v t.g).natDegree = (polyVal v g).natDegree ∧
      CongMod (v i ^ (n + 1)) (polyVal v hh) (C (polyVal v hh).leadingCoeff * polyVal v t.f * polyVal v t.g) := by
  haveI := h.domain
  have hH0 : polyVal v hh ≠ 0 := fun e => by rw [e] at hd; simp at hd
  obtain ⟨al, l1, l2⟩ := h.toSemi.polyLeadingCoeff_some hh hH0
  obtain ⟨g0, be, ga, x1, x2, x3⟩ := h.xgcd_coprime al i (by rw [l2]; exact hα)
  have hm : v (S.natPow i (n + 1)) = v i ^ (n + 1) := h.toSemi.natPow i (n + 1)
  have hm0 : v (S.natPow i (n + 1)) ≠ 0 := by rw [hm]; exact pow_ne_zero _ hi0
  have hin : ¬ v i ^ n ∣ (polyVal v hh).leadingCoeff := fun hdv => hiu (by
    have h1 : v i ∣ (polyVal v hh).leadingCoeff := (dvd_pow_self _ (by omega)).trans hdv
    exact hα.isUnit_of_dvd' h1 dvd_rfl)
  have hdeg : (polyVal v hh).natDegree = (polyVal v f * polyVal v g).natDegree :=
    natDegree_of_cong (hf.mul hg) _ rfl hin (by rw [← mul_assoc]; exact hc)
  have hdegfg : (polyVal v f * polyVal v g).natDegree = (polyVal v f).natDegree + (polyVal v g).natDegree :=
    hf.natDegree_mul hg
  -- the difference
  obtain ⟨D, hDdef⟩ : ∃ D, D = S.toRingOps.poly.henselDelta al hh f g := ⟨_, rfl⟩
  have hDval : polyVal v D = polyVal v hh - C (v al) * polyVal v f * polyVal v g := by
    rw [hDdef]
    unfold RingOps.henselDelta
    rw [h.toRing.poly.add, h.toRing.poly.neg, h.toRing.poly.toSemi.product]
    simp only [List.map_cons, List.map_nil, List.prod_cons, List.prod_nil, polyVal_const, mul_one]
    ring
  have hDcoeff : ∀ k, (polyVal v hh).natDegree ≤ k → (polyVal v D).coeff k = 0 := by
    intro k hk
    rw [hDval, coeff_sub, mul_assoc, coeff_C_mul, l2]
    rcases hk.lt_or_eq with hlt | rfl
    · rw [coeff_eq_zero_of_natDegree_lt hlt, coeff_eq_zero_of_natDegree_lt (by omega)]; simp
    · conv_lhs => rw [hdeg, (hf.mul hg).coeff_natDegree, mul_one, ← hdeg, coeff_natDegree, sub_self]
  obtain ⟨dh, hdh⟩ : ∃ dh, dh = D.map (S.reduce (S.natPow i (n + 1))) := ⟨_, rfl⟩
  obtain ⟨r1, r2⟩ := h.polyVal_reduce (S.natPow i (n + 1)) hm0 D
  rw [← hdh, hm] at r1
  rw [← hdh] at r2
  have hdhcoeff : ∀ k, (polyVal v hh).natDegree ≤ k → (polyVal v dh).coeff k = 0 := fun k hk =>
    r2 k (by rw [hDcoeff k hk]; exact dvd_zero _)
  have hdhdeg : (polyVal v dh).degree < (polyVal v f * polyVal v g).degree := by
    rw [degree_eq_natDegree (hf.mul hg).ne_zero, ← hdeg]
    exact (degree_lt_iff_coeff_zero _ _).2 hdhcoeff
  have hdhn : CongMod (v i ^ n) (polyVal v dh) 0 := by
    refine (r1.mono (pow_dvd_pow _ (by omega))).trans ?_
    rw [hDval, l2]
    intro k
    have := hc k
    rw [coeff_sub, coeff_zero, sub_zero]
    exact this
  have hdhn' : C (v i ^ n) ∣ polyVal v dh := by simpa using congMod_iff.1 hdhn
  -- the divisions
  obtain ⟨qg, rg, q1, q2, q3⟩ := h.quoremMonic (S.polyMul a dh) g hg
  obtain ⟨qf, rf, p1, p2, p3⟩ := h.quoremMonic (S.polyMul b dh) f hf
  rw [h.toSemi.polyMul] at q2 p2
  have hrg := (monic_division_dvd hg q2 q3 (hdhn'.mul_left _)).2
  have hrf := (monic_division_dvd hf p2 p3 (hdhn'.mul_left _)).2
  have hmul : C (v i ^ (n + 1)) ∣ (polyVal v a * polyVal v f + polyVal v b * polyVal v g) * polyVal v dh - polyVal v dh := by
    have : (polyVal v a * polyVal v f + polyVal v b * polyVal v g) * polyVal v dh - polyVal v dh
        = (polyVal v a * polyVal v f + polyVal v b * polyVal v g - 1) * polyVal v dh := by ring
    rw [this, pow_succ', C_mul]
    exact mul_dvd_mul (congMod_iff.1 hb) hdhn'
  have hsum : (polyVal v a * polyVal v f + polyVal v b * polyVal v g) * polyVal v dh - polyVal v dh
      = (polyVal v qf + polyVal v qg) * (polyVal v f * polyVal v g)
        + (polyVal v rg * polyVal v f + polyVal v rf * polyVal v g - polyVal v dh) := by
    have e1 : (polyVal v a * polyVal v f + polyVal v b * polyVal v g) * polyVal v dh
        = (polyVal v a * polyVal v dh) * polyVal v f + (polyVal v b * polyVal v dh) * polyVal v g := by ring
    rw [e1, q2, p2]; ring
  have hTdeg : (polyVal v rg * polyVal v f + polyVal v rf * polyVal v g - polyVal v dh).degree
      < (polyVal v f * polyVal v g).degree := by
    refine lt_of_le_of_lt (degree_sub_le _ _) (max_lt (lt_of_le_of_lt (degree_add_le _ _) (max_lt ?_ ?_)) hdhdeg)
    · rw [mul_comm (polyVal v f), hf.degree_mul, hf.degree_mul]
      exact WithBot.add_lt_add_right (degree_ne_bot.2 hf.ne_zero) q3
    · rw [hg.degree_mul, hg.degree_mul]
      exact WithBot.add_lt_add_right (degree_ne_bot.2 hg.ne_zero) p3
  obtain ⟨hQ, hT⟩ := monic_division_dvd (hf.mul hg) hsum hTdeg hmul
  have hFlift : (polyVal v (S.polyAdd (S.polyMul (polyConst be) rf) f)) = C (v be) * polyVal v rf + polyVal v f := by
    rw [h.toSemi.polyAdd, h.toSemi.polyMul, polyVal_const]
  have hGlift : (polyVal v (S.polyAdd (S.polyMul (polyConst be) rg) g)) = C (v be) * polyVal v rg + polyVal v g := by
    rw [h.toSemi.polyAdd, h.toSemi.polyMul, polyVal_const]
  have hdf : (C (v be) * polyVal v rf).degree < (polyVal v f).degree := lt_of_le_of_lt (degree_C_mul_le' _ _) p3
  have hdg : (C (v be) * polyVal v rg).degree < (polyVal v g).degree := lt_of_le_of_lt (degree_C_mul_le' _ _) q3
  have hFm : (polyVal v (S.polyAdd (S.polyMul (polyConst be) rf) f)).Monic := by
    rw [hFlift]; exact hf.add_of_right hdf
  have hGm : (polyVal v (S.polyAdd (S.polyMul (polyConst be) rg) g)).Monic := by
    rw [hGlift]; exact hg.add_of_right hdg
  have hFd : (polyVal v (S.polyAdd (S.polyMul (polyConst be) rf) f)).natDegree = (polyVal v f).natDegree := by
    rw [hFlift]; exact natDegree_eq_of_degree_eq (degree_add_eq_right_of_degree_lt hdf)
  have hGd : (polyVal v (S.polyAdd (S.polyMul (polyConst be) rg) g)).natDegree = (polyVal v g).natDegree := by
    rw [hGlift]; exact natDegree_eq_of_degree_eq (degree_add_eq_right_of_degree_lt hdg)
  obtain ⟨lf, hlf⟩ : ∃ lf, lf = (S.polyAdd (S.polyMul (polyConst be) rf) f).map (S.reduce (S.natPow i (n + 1))) := ⟨_, rfl⟩
  obtain ⟨lg, hlg⟩ : ∃ lg, lg = (S.polyAdd (S.polyMul (polyConst be) rg) g).map (S.reduce (S.natPow i (n + 1))) := ⟨_, rfl⟩
  have cF := (h.polyVal_reduce (S.natPow i (n + 1)) hm0 (S.polyAdd (S.polyMul (polyConst be) rf) f)).1
  have cG := (h.polyVal_reduce (S.natPow i (n + 1)) hm0 (S.polyAdd (S.polyMul (polyConst be) rg) g)).1
  have mF := h.polyVal_reduce_monic (S.natPow i (n + 1)) hm0 hone _ hFm
  have mG := h.polyVal_reduce_monic (S.natPow i (n + 1)) hm0 hone _ hGm
  rw [← hlf, hm, hFlift] at cF
  rw [← hlg, hm, hGlift] at cG
  rw [← hlf, hFd] at mF
  rw [← hlg, hGd] at mG
  have dF : CongMod (v i ^ n) (C (v be) * polyVal v rf) 0 := congMod_iff.2 (by simpa using hrf.mul_left _)
  have dG : CongMod (v i ^ n) (C (v be) * polyVal v rg) 0 := congMod_iff.2 (by simpa using hrg.mul_left _)
  have hpow : v i ^ n ∣ v i ^ (n + 1) := pow_dvd_pow _ (by omega)
  have e1 : S.polyRemAll (S.natPow i (n + 1)) (S.toRingOps.poly.henselDelta al hh f g) = some dh := by
    rw [h.polyRemAll, hdh, hDdef]
  have e2 : (S.quotientRing (S.natPow i (n + 1))).poly.equal dh
      ((S.quotientRing (S.natPow i (n + 1))).poly.henselDelta al hh f g) = true := by
    have hP := h.quotientPoly (S.natPow i (n + 1)) hm0
    rw [hP.equal]
    unfold RingOps.henselDelta
    rw [hP.add, hP.neg, hP.toSemi.product]
    simp only [List.map_cons, List.map_nil, List.prod_cons, List.prod_nil, polyVal_const, mul_one]
    rw [(map_mk_eq_iff (v (S.natPow i (n + 1))) _ _).2 (by rw [hm]; exact r1), hDval]
    simp only [Polynomial.map_sub, Polynomial.map_mul]; ring
  have e3 : S.polyDegree hh = some (polyVal v hh).natDegree := h.toSemi.polyDegree_some hh hH0
  have e4 : decide ((S.polyDegree dh).getD 0 < (polyVal v hh).natDegree) = true := by
    rw [decide_eq_true_eq]
    by_cases hz : polyVal v dh = 0
    · rw [h.toSemi.polyDegree_none dh hz]; exact hd
    · rw [h.toSemi.polyDegree_some dh hz]
      exact (natDegree_lt_iff_degree_lt hz).2 ((degree_lt_iff_coeff_zero _ _).2 hdhcoeff)
  have e5 : (S.quotientRing (S.natPow i (n + 1))).poly.isZero ((S.quotientRing (S.natPow i (n + 1))).poly.add qf qg) = true := by
    have hP := h.quotientPoly (S.natPow i (n + 1)) hm0
    rw [hP.toSemi.isZero, hP.add, ← Polynomial.map_add, ← Polynomial.map_zero (Ideal.Quotient.mk _), map_mk_eq_iff, congMod_iff, sub_zero, hm]
    exact hQ
  have e6 : S.polyRemAll (S.natPow i (n + 1)) (S.polyAdd (S.polyMul (polyConst be) rf) f) = some lf := by
    rw [h.polyRemAll, hlf]
  have e7 : S.polyRemAll (S.natPow i (n + 1)) (S.polyAdd (S.polyMul (polyConst be) rg) g) = some lg := by
    rw [h.polyRemAll, hlg]
  refine ⟨⟨S.polyMul (polyConst be) rf, S.polyMul (polyConst be) rg, lf, lg⟩, ?_, mF.1, mG.1, ?_, ?_, ?_, ?_, ?_, ?_, mF.2, mG.2, ?_⟩
  · unfold EucOps.computeLift
    simp only [l1, x1, x2, e1, h.newRing _ hm0, e2, e3, e4, q1, p1, e5, e6, e7, assertThat, if_true,
      Option.bind_eq_bind, Option.bind_some]
  · refine (cF.mono hpow).trans ?_
    have := dF.add (CongMod.refl (v i ^ n) (polyVal v f))
    rwa [zero_add] at this
  · refine (cG.mono hpow).trans ?_
    have := dG.add (CongMod.refl (v i ^ n) (polyVal v g))
    rwa [zero_add] at this
  · simp only [h.toSemi.polyMul, polyVal_const]; rw [add_comm (polyVal v f)]; exact cF
  · simp only [h.toSemi.polyMul, polyVal_const]; rw [add_comm (polyVal v g)]; exact cG
  · simp only [h.toSemi.polyMul, polyVal_const]; exact dF
  · simp only [h.toSemi.polyMul, polyVal_const]; exact dG
  · -- the product
    have c1 := ((CongMod.refl (v i ^ (n + 1)) (C (polyVal v hh).leadingCoeff)).mul cF).mul cG
    refine CongMod.symm (c1.trans ?_)
    rw [congMod_iff, ← l2]
    -- modulo `i ^ (n + 1)`
    obtain ⟨u1, hu1⟩ := hrf
    obtain ⟨u2, hu2⟩ := hrg
    obtain ⟨u3, hu3⟩ := hT
    obtain ⟨u4, hu4⟩ := congMod_iff.1 r1
    have hdv : polyVal v hh = polyVal v dh - C (v i ^ (n + 1)) * u4 + C (v al) * polyVal v f * polyVal v g := by
      rw [← hu4, hDval]; ring
    have hdhv : polyVal v dh = polyVal v rg * polyVal v f + polyVal v rf * polyVal v g - C (v i ^ (n + 1)) * u3 := by
      rw [← hu3]; ring
    have hab : C (v be) * C (v al) = 1 - C (v ga) * C (v i) := by
      rw [← C_mul, ← C_mul, ← C_1, ← x3, ← C_sub]; congr 1; ring
    obtain ⟨k, rfl⟩ : ∃ k, n = k + 1 := ⟨n - 1, by omega⟩
    have hpw : C (v i ^ (k + 1)) * C (v i ^ (k + 1)) = C (v i ^ (k + 1 + 1)) * C (v i ^ k) := by
      rw [← C_mul, ← C_mul]; congr 1; ring
    have hpw1 : C (v i) * C (v i ^ (k + 1)) = C (v i ^ (k + 1 + 1)) := by
      rw [← C_mul]; congr 1; ring
    refine ⟨-(C (v ga) * (u2 * polyVal v f + u1 * polyVal v g)) + C (v al) * C (v be) * C (v be) * C (v i ^ k) * u1 * u2 + u3 + u4, ?_⟩
    have e : C (v al) * (C (v be) * polyVal v rf + polyVal v f) * (C (v be) * polyVal v rg + polyVal v g) - polyVal v hh
        = (C (v be) * C (v al)) * (polyVal v rg * polyVal v f + polyVal v rf * polyVal v g)
          + C (v al) * C (v be) * C (v be) * polyVal v rf * polyVal v rg
          - (polyVal v dh - C (v i ^ (k + 1 + 1)) * u4) := by
      rw [hdv]; ring
    rw [e, hab, hdhv, hu1, hu2]
    linear_combination (-(C (v ga) * (u2 * polyVal v f + u1 * polyVal v g))) * hpw1
      + (C (v al) * C (v be) * C (v be) * u1 * u2) * hpw

end
end Verif.Rings
