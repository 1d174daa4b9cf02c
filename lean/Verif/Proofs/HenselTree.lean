import Verif.Proofs.Hensel

/-!
# Hensel lifting: trees
-/

namespace Verif.Rings

open Polynomial

section Math
variable {α R : Type} [CommRing R] {v : α → R}

theorem HenselProduct.Valid.natDegree_pos [IsDomain R] {lifted : Bool} {p : R} {n : Nat} (hn : 0 < n) {h : List α}
    {pr : HenselProduct α} (hv : pr.Valid v lifted p n h) : 0 < (polyVal v h).natDegree := by
  induction pr generalizing h with
  | leaf => exact hv
  | branch f fp g gp a b ihf ihg =>
    obtain ⟨h1, h2, h3, h4, h5, h6, h7, h8⟩ := hv
    rw [natDegree_of_cong (h2.mul h3) _ rfl (fun hd => h1 ((dvd_pow_self _ hn.ne').trans hd)) (by rw [← mul_assoc]; exact h4),
      h2.natDegree_mul h3]
    exact Nat.add_pos_left (ihf h7) _

theorem HenselProduct.Valid.congr {lifted : Bool} {p : R} {n : Nat} {h h' : List α}
    {pr : HenselProduct α} (hv : pr.Valid v lifted p n h) (hc : CongMod (p ^ n) (polyVal v h') (polyVal v h))
    (hl : (polyVal v h').leadingCoeff = (polyVal v h).leadingCoeff) (hd : (polyVal v h').natDegree = (polyVal v h).natDegree) :
    pr.Valid v lifted p n h' := by
  cases pr with
  | leaf => exact (show 0 < (polyVal v h').natDegree from hd ▸ hv)
  | branch f fp g gp a b =>
    obtain ⟨h1, h2, h3, h4, h5, h6, h7, h8⟩ := hv
    exact ⟨hl ▸ h1, h2, h3, by rw [hl]; exact hc.trans h4, h5, h6, h7, h8⟩

theorem HenselProduct.Valid.monic [IsDomain R] {lifted : Bool} {p : R} {n : Nat} (hn : 0 < n) {h : List α} {pr : HenselProduct α}
    (hv : pr.Valid v lifted p n h) (hm : (polyVal v h).Monic) :
    (∀ x ∈ pr.factorList h, (polyVal v x).Monic ∧ 0 < (polyVal v x).natDegree) ∧
    CongMod (p ^ n) (polyVal v h) ((pr.factorList h).map (polyVal v)).prod := by
  induction pr generalizing h with
  | leaf =>
    have hd := hv.natDegree_pos hn
    simp only [HenselProduct.factorList, List.mem_singleton, forall_eq, List.map_cons, List.map_nil, List.prod_cons, List.prod_nil, mul_one]
    exact ⟨⟨hm, hd⟩, .refl _ _⟩
  | branch f fp g gp a b ihf ihg =>
    obtain ⟨h1, h2, h3, h4, h5, h6, h7, h8⟩ := hv
    obtain ⟨f1, f2⟩ := ihf h7 h2
    obtain ⟨g1, g2⟩ := ihg h8 h3
    simp only [HenselProduct.factorList, List.mem_append, List.map_append, List.prod_append]
    refine ⟨fun x hx => hx.elim (f1 x) (g1 x), h4.trans ?_⟩
    rw [hm.leadingCoeff, C_1, one_mul]
    exact f2.mul g2

/-- what a valid branch says about the list of factors -/
theorem HenselProduct.Valid.factors [IsDomain R] {lifted : Bool} {p : R} {n : Nat} (hn : 0 < n) {h : List α} {f fp g gp a b}
    (hv : (HenselProduct.branch f fp g gp a b).Valid v lifted p n h) :
    (∀ x ∈ (HenselProduct.branch f fp g gp a b).factorList h, (polyVal v x).Monic ∧ 0 < (polyVal v x).natDegree) ∧
    CongMod (p ^ n) (polyVal v h) (C (polyVal v h).leadingCoeff *
      (((HenselProduct.branch f fp g gp a b).factorList h).map (polyVal v)).prod) := by
  obtain ⟨h1, h2, h3, h4, h5, h6, h7, h8⟩ := hv
  obtain ⟨f1, f2⟩ := h7.monic hn h2
  obtain ⟨g1, g2⟩ := h8.monic hn h3
  simp only [HenselProduct.factorList, List.mem_append, List.map_append, List.prod_append]
  refine ⟨fun x hx => hx.elim (f1 x) (g1 x), h4.trans ?_⟩
  rw [mul_assoc]
  exact (CongMod.refl _ _).mul (f2.mul g2)

theorem HenselProduct.Valid.unlift {p : R} {n : Nat} {h : List α} {pr : HenselProduct α}
    (hv : pr.Valid v true p n h) : pr.Valid v false p n h := by
  induction pr generalizing h with
  | leaf => exact hv
  | branch f fp g gp a b ihf ihg =>
    obtain ⟨h1, h2, h3, h4, h5, h6, h7, h8⟩ := hv
    exact ⟨h1, h2, h3, h4, h5, fun e => (by cases e), ihf h7, ihg h8⟩

theorem HenselProduct.Valid.lift_one {p : R} {h : List α} {pr : HenselProduct α}
    (hv : pr.Valid v false p 1 h) : pr.Valid v true p 1 h := by
  induction pr generalizing h with
  | leaf => exact hv
  | branch f fp g gp a b ihf ihg =>
    obtain ⟨h1, h2, h3, h4, h5, h6, h7, h8⟩ := hv
    exact ⟨h1, h2, h3, h4, h5, fun _ => by rw [pow_one]; exact h5, ihf h7, ihg h8⟩

end Math

section
variable {α R : Type} [CommRing R] {S : EucOps α} {v : α → R} (h : S.Models v)
include h

theorem EucOps.Models.reduce_one {p : α} (hr : RemOne S v p) (m : α) (k : Nat) (hk : 0 < k) (hm : v m = v p ^ k) (x : α) (hx : v x = 1) :
    v (S.reduce m x) = 1 := by
  obtain ⟨r, r1, -⟩ := h.rem x m
  rw [EucOps.reduce, r1]
  exact hr m k x r hk hm hx r1

theorem EucOps.Models.henselCheckNode (lifted : Bool) (i : α) (n : Nat) (hi : v i ≠ 0) (hh f g a b : List α) (hh0 : polyVal v hh ≠ 0) :
    ∃ c, S.henselCheckNode lifted i n hh f g a b = some c ∧ (c = true ↔
      CongMod (v i ^ n) (polyVal v hh) (C (polyVal v hh).leadingCoeff * polyVal v f * polyVal v g) ∧
      CongMod (v i) (polyVal v a * polyVal v f + polyVal v b * polyVal v g) 1 ∧
      (lifted = true → CongMod (v i ^ n) (polyVal v a * polyVal v f + polyVal v b * polyVal v g) 1)) := by
  haveI := h.domain
  have hm : v (S.natPow i n) = v i ^ n := h.toSemi.natPow i n
  have hm0 : v (S.natPow i n) ≠ 0 := by rw [hm]; exact pow_ne_zero _ hi
  obtain ⟨al, l1, l2⟩ := h.toSemi.polyLeadingCoeff_some hh hh0
  have b1 := h.bezoutOk i hi a f b g
  have b2 := h.bezoutOk _ hm0 a f b g
  have b3 := h.quotientPoly_product3 _ hm0 al hh f g
  rw [hm] at b2 b3
  rw [l2] at b3
  unfold EucOps.henselCheckNode
  simp only [h.newRing i hi, h.newRing _ hm0, l1, Option.bind_eq_bind, Option.bind_some]
  by_cases c1 : (S.quotientRing i).poly.bezoutOk a f b g = true
  · rw [c1]
    simp only [Bool.not_true, Bool.false_eq_true, if_false]
    by_cases c2 : (lifted && !(S.quotientRing (S.natPow i n)).poly.bezoutOk a f b g) = true
    · rw [if_pos c2]
      refine ⟨false, rfl, ?_⟩
      simp only [Bool.false_eq_true, false_iff]
      rintro ⟨-, -, h3⟩
      simp only [Bool.and_eq_true, Bool.not_eq_true'] at c2
      rw [b2.2 (h3 c2.1)] at c2
      exact absurd c2.2 (by simp)
    · rw [if_neg c2]
      refine ⟨_, rfl, ?_⟩
      rw [b3]
      refine ⟨fun h3 => ⟨h3, b1.1 c1, fun hl => ?_⟩, fun h3 => h3.1⟩
      simp only [hl, Bool.true_and, Bool.not_eq_true', Bool.not_eq_false] at c2
      exact b2.1 c2
  · rw [if_pos (by simp only [Bool.not_eq_true] at c1; rw [c1]; rfl)]
    refine ⟨false, rfl, ?_⟩
    simp only [Bool.false_eq_true, false_iff]
    rintro ⟨-, h2, -⟩
    exact c1 (b1.2 h2)

theorem EucOps.Models.henselCheck (lifted : Bool) (i : α) (n : Nat) (hn : 0 < n) (hi : v i ≠ 0) (hh : List α) (pr : HenselProduct α)
    (hv : pr.Valid v lifted (v i) n hh) : S.henselCheck lifted i n hh pr = some true := by
  haveI := h.domain
  induction pr generalizing hh with
  | leaf => rfl
  | branch f fp g gp a b ihf ihg =>
    have hd := hv.natDegree_pos hn
    obtain ⟨h1, h2, h3, h4, h5, h6, h7, h8⟩ := hv
    obtain ⟨c, c1, c2⟩ := h.henselCheckNode lifted i n hi hh f g a b (fun e => by rw [e] at hd; simp at hd)
    rw [EucOps.henselCheck, ihf f h7, ihg g h8, c1, c2.2 ⟨h4, h5, h6⟩]
    rfl

omit h in
theorem coprime_of_not_dvd [IsDomain R] [IsPrincipalIdealRing R] {p x : R} (hp : Irreducible p) (hx : ¬ p ∣ x) : IsCoprime x p :=
  ((hp.coprime_iff_not_dvd).2 hx).symm

/-- Lifting the tree by one power. -/
theorem EucOps.Models.henselLinear [IsPrincipalIdealRing R] (i : α) (hi : Irreducible (v i)) (hr : RemOne S v i) (n : Nat) (hn : 0 < n)
    (hh hh' : List α) (pr : HenselProduct α) (hv : pr.Valid v false (v i) n hh)
    (hc : CongMod (v i ^ n) (polyVal v hh') (polyVal v hh))
    (hl : (polyVal v hh').leadingCoeff = (polyVal v hh).leadingCoeff) (hd : (polyVal v hh').natDegree = (polyVal v hh).natDegree) :
    ∃ pr', S.henselLinear i n hh' pr = some pr' ∧ pr'.Valid v false (v i) (n + 1) hh' ∧
      List.Forall₂ (fun x y => CongMod (v i ^ n) (polyVal v x) (polyVal v y)) (pr'.factorList hh') (pr.factorList hh) := by
  haveI := h.domain
  induction pr generalizing hh hh' with
  | leaf => exact ⟨.leaf, rfl, (show 0 < (polyVal v hh').natDegree from hd ▸ hv), .cons hc .nil⟩
  | branch f fp g gp a b ihf ihg =>
    have hv' := hv.congr hc hl hd
    have hd' := hv'.natDegree_pos hn
    obtain ⟨h1, h2, h3, h4, h5, h6, h7, h8⟩ := hv'
    obtain ⟨t, t1, t2, t3, t4, t5, -, -, -, -, t8, t9, t10⟩ := h.computeLift i n hn a b f g hh' hi.ne_zero hi.not_isUnit
      (coprime_of_not_dvd hi h1) h2 h3 hd' h4 h5 (h.reduce_one hr _ (n + 1) (by omega) (h.toSemi.natPow i (n + 1)))
    obtain ⟨fp', f1, f2, f3⟩ := ihf f t.f h7 t4 (by rw [t2.leadingCoeff, h2.leadingCoeff]) t8
    obtain ⟨gp', g1, g2, g3⟩ := ihg g t.g h8 t5 (by rw [t3.leadingCoeff, h3.leadingCoeff]) t9
    have hfin : (HenselProduct.branch t.f fp' t.g gp' a b).Valid v false (v i) (n + 1) hh' := by
      refine ⟨h1, t2, t3, t10, ?_, fun e => (by cases e), f2, g2⟩
      have hpn : v i ∣ v i ^ n := dvd_pow_self _ (by omega)
      exact (((CongMod.refl _ _).mul (t4.mono hpn)).add ((CongMod.refl _ _).mul (t5.mono hpn))).trans h5
    refine ⟨_, ?_, hfin, List.rel_append f3 g3⟩
    rw [EucOps.henselLinear]
    simp only [t1, f1, g1, h.henselCheck false i (n + 1) (by omega) hi.ne_zero hh' _ hfin, assertThat, if_true, Option.bind_eq_bind,
      Option.bind_some]

/-- The new Bézout coefficients. -/
theorem EucOps.Models.henselBezout (m : α) (x : R) (hm0 : v m ≠ 0) (hx : v m ∣ x * x) (a b f g : List α) (t : LiftedFactors α)
    (hb : CongMod x (polyVal v a * polyVal v f + polyVal v b * polyVal v g) 1)
    (hf : CongMod (v m) (polyVal v t.f) (polyVal v f + polyVal v t.deltaF))
    (hg : CongMod (v m) (polyVal v t.g) (polyVal v g + polyVal v t.deltaG))
    (hdf : CongMod x (polyVal v t.deltaF) 0) (hdg : CongMod x (polyVal v t.deltaG) 0) :
    ∃ a' b', (S.quotientRing m).poly.henselBezout a b f g t = some (a', b') ∧
      CongMod (v m) (polyVal v a' * polyVal v t.f + polyVal v b' * polyVal v t.g) 1 := by
  have hP := h.quotientPoly m hm0
  obtain ⟨P, hPd⟩ : ∃ P, P = (S.quotientRing m).poly := ⟨_, rfl⟩
  rw [← hPd] at hP ⊢
  obtain ⟨delta, hdelta⟩ : ∃ d, d = P.sum [P.sum [P.mul a f, P.mul b g, P.neg P.one], P.mul a t.deltaF, P.mul b t.deltaG] := ⟨_, rfl⟩
  have hdv : CongMod (v m) (polyVal v delta)
      (polyVal v a * (polyVal v f + polyVal v t.deltaF) + polyVal v b * (polyVal v g + polyVal v t.deltaG) - 1) := by
    rw [← map_mk_eq_iff, hdelta, hP.toSemi.sum]
    simp only [List.map_cons, List.map_nil, List.sum_cons, List.sum_nil, hP.toSemi.sum, hP.mul, hP.neg, hP.one, Polynomial.map_add,
      Polynomial.map_mul, Polynomial.map_sub, Polynomial.map_one]
    ring
  have hkey : CongMod (v m) (polyVal v a * polyVal v t.f + polyVal v b * polyVal v t.g) (polyVal v delta + 1) := by
    have e := ((CongMod.refl (v m) (polyVal v a)).mul hf).add ((CongMod.refl (v m) (polyVal v b)).mul hg)
    have := hdv.add (CongMod.refl (v m) 1)
    rw [sub_add_cancel] at this
    exact e.trans this.symm
  have hok : P.equal (P.add (P.mul a t.f) (P.mul b t.g)) (P.add delta P.one) = true := by
    rw [hP.equal, hP.add, hP.mul, hP.mul, hP.add, hP.one]
    have := (map_mk_eq_iff _ _ _).2 hkey
    simpa only [Polynomial.map_add, Polynomial.map_mul, Polynomial.map_one] using this
  refine ⟨P.add a (P.neg (P.mul a delta)), P.add b (P.neg (P.mul b delta)), ?_, ?_⟩
  · unfold RingOps.henselBezout
    simp only [← hdelta, hok, assertThat, if_true, Option.bind_eq_bind, Option.bind_some]
  · have ha : CongMod (v m) (polyVal v (P.add a (P.neg (P.mul a delta)))) (polyVal v a * (1 - polyVal v delta)) := by
      rw [← map_mk_eq_iff, hP.add, hP.neg, hP.mul]
      simp only [Polynomial.map_mul, Polynomial.map_sub, Polynomial.map_one]; ring
    have hb' : CongMod (v m) (polyVal v (P.add b (P.neg (P.mul b delta)))) (polyVal v b * (1 - polyVal v delta)) := by
      rw [← map_mk_eq_iff, hP.add, hP.neg, hP.mul]
      simp only [Polynomial.map_mul, Polynomial.map_sub, Polynomial.map_one]; ring
    refine ((ha.mul (.refl _ _)).add (hb'.mul (.refl _ _))).trans ?_
    have e1 : polyVal v a * (1 - polyVal v delta) * polyVal v t.f + polyVal v b * (1 - polyVal v delta) * polyVal v t.g
        = (1 - polyVal v delta) * (polyVal v a * polyVal v t.f + polyVal v b * polyVal v t.g) := by ring
    rw [e1]
    refine ((CongMod.refl _ _).mul hkey).trans ?_
    have e2 : (1 - polyVal v delta) * (polyVal v delta + 1) = 1 - polyVal v delta * polyVal v delta := by ring
    rw [e2]
    -- the square of delta
    have hE : CongMod x (polyVal v a * (polyVal v f + polyVal v t.deltaF) + polyVal v b * (polyVal v g + polyVal v t.deltaG) - 1) 0 := by
      have c1 := hb.add (((CongMod.refl x (polyVal v a)).mul hdf).add ((CongMod.refl x (polyVal v b)).mul hdg))
      rw [congMod_iff] at c1 ⊢
      convert c1 using 1
      ring
    obtain ⟨E, hEd⟩ : ∃ E, E = polyVal v a * (polyVal v f + polyVal v t.deltaF) + polyVal v b * (polyVal v g + polyVal v t.deltaG) - 1 := ⟨_, rfl⟩
    rw [← hEd] at hE hdv
    have hE2 : C (v m) ∣ E * E := by
      have h1 : C x ∣ E := by simpa using congMod_iff.1 hE
      exact (map_dvd C hx).trans (by rw [C_mul]; exact mul_dvd_mul h1 h1)
    have hd2 := congMod_iff.1 (hdv.mul hdv)
    rw [congMod_iff]
    have : 1 - polyVal v delta * polyVal v delta - 1 = -((polyVal v delta * polyVal v delta - E * E) + E * E) := by ring
    rw [this, dvd_neg]
    exact dvd_add hd2 hE2

/-- Lifting the tree to the square of the modulus. -/
theorem EucOps.Models.henselQuadratic [IsPrincipalIdealRing R] (i : α) (hi : Irreducible (v i)) (hr : RemOne S v i) (n : Nat) (hn : 0 < n)
    (hh hh' : List α) (pr : HenselProduct α) (hv : pr.Valid v true (v i) n hh)
    (hc : CongMod (v i ^ n) (polyVal v hh') (polyVal v hh))
    (hl : (polyVal v hh').leadingCoeff = (polyVal v hh).leadingCoeff) (hd : (polyVal v hh').natDegree = (polyVal v hh).natDegree) :
    ∃ pr', S.henselQuadratic i n hh' pr = some pr' ∧ pr'.Valid v true (v i) (n * 2) hh' ∧
      List.Forall₂ (fun x y => CongMod (v i ^ n) (polyVal v x) (polyVal v y)) (pr'.factorList hh') (pr.factorList hh) := by
  haveI := h.domain
  induction pr generalizing hh hh' with
  | leaf => exact ⟨.leaf, rfl, (show 0 < (polyVal v hh').natDegree from hd ▸ hv), .cons hc .nil⟩
  | branch f fp g gp a b ihf ihg =>
    have hv' := hv.congr hc hl hd
    have hd' := hv'.natDegree_pos hn
    obtain ⟨h1, h2, h3, h4, h5, h6, h7, h8⟩ := hv'
    have hin : v (S.natPow i n) = v i ^ n := h.toSemi.natPow i n
    have hi2 : v (S.natPow i (n * 2)) = v i ^ (n * 2) := h.toSemi.natPow i (n * 2)
    have hin0 : v (S.natPow i n) ≠ 0 := by rw [hin]; exact pow_ne_zero _ hi.ne_zero
    have hi20 : v (S.natPow i (n * 2)) ≠ 0 := by rw [hi2]; exact pow_ne_zero _ hi.ne_zero
    have hpw : (v i ^ n) ^ (1 + 1) = v i ^ (n * 2) := by rw [← pow_mul]
    obtain ⟨t, t1, t2, t3, t4, t5, t6, t7, t6', t7', t8, t9, t10⟩ := h.computeLift (S.natPow i n) 1 one_pos a b f g hh' hin0
      (by rw [hin, isUnit_pow_iff (by omega)]; exact hi.not_isUnit)
      (by rw [hin]; exact (coprime_of_not_dvd hi h1).pow_right) h2 h3 hd' (by rw [hin, pow_one]; exact h4)
      (by rw [hin]; exact h6 rfl)
      (h.reduce_one hr _ (n * 2) (by omega) (by rw [h.toSemi.natPow, hin, hpw]))
    rw [hin, pow_one] at t4 t5 t6' t7'
    rw [hin, hpw] at t6 t7 t10
    obtain ⟨fp', f1, f2, f3⟩ := ihf f t.f h7 t4 (by rw [t2.leadingCoeff, h2.leadingCoeff]) t8
    obtain ⟨gp', g1, g2, g3⟩ := ihg g t.g h8 t5 (by rw [t3.leadingCoeff, h3.leadingCoeff]) t9
    obtain ⟨a', b', ab1, ab2⟩ := h.henselBezout (S.natPow i (n * 2)) (v i ^ n) hi20 (by rw [hi2, ← pow_add]; exact pow_dvd_pow _ (by omega))
      a b f g t (h6 rfl) (by rw [hi2]; exact t6) (by rw [hi2]; exact t7) t6' t7'
    rw [hi2] at ab2
    have hfin : (HenselProduct.branch t.f fp' t.g gp' a' b').Valid v true (v i) (n * 2) hh' :=
      ⟨h1, t2, t3, t10, ab2.mono (dvd_pow_self _ (by omega)), fun _ => ab2, f2, g2⟩
    refine ⟨_, ?_, hfin, List.rel_append f3 g3⟩
    rw [EucOps.henselQuadratic]
    simp only [h.newRing _ hi20, t1, ab1, f1, g1, h.henselCheck true i (n * 2) (by omega) hi.ne_zero hh' _ hfin, assertThat, if_true,
      Option.bind_eq_bind, Option.bind_some]

end
end Verif.Rings
