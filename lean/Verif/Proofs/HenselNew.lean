import Verif.Proofs.HenselTree

/-!
# Hensel factorizations: construction
-/

namespace Verif.Rings

open Polynomial

section Field
variable {α K : Type} [CommRing K] (hK : IsField K) {D : DomainOps α} {w : α → K} (hD : D.Models w)
include hK hD

theorem fieldXgcd_coprime (f g : List α) (hc : IsCoprime (polyVal w f) (polyVal w g)) :
    ∃ u a b, D.polyBezout.xgcd f g = some (u, a, b) ∧ D.poly.equal u D.poly.one = true ∧
      polyVal w a * polyVal w f + polyVal w b * polyVal w g = 1 := by
  letI : Field K := hK.toField
  exact (DomainOps.Models.polyEuc (F := K) hD).xgcd_coprime f g hc

theorem fieldXgcd_eq (f g u a b : List α) (e : D.polyBezout.xgcd f g = some (u, a, b)) (e' : D.poly.equal u D.poly.one = true) :
    polyVal w a * polyVal w f + polyVal w b * polyVal w g = 1 := by
  letI : Field K := hK.toField
  have hE := DomainOps.Models.polyEuc (F := K) hD
  obtain ⟨g0, a0, b0, e1, e2, -⟩ := hE.euclideanXgcd f g
  have : some (g0, a0, b0) = some (u, a, b) := e1.symm.trans e
  cases this
  have h1 : polyVal w u = polyVal w D.polyEuc.one := (hE.equal _ _).1 e'
  exact (e2.symm.trans h1).trans hE.one

end Field

/-- `A` and `B` are coprime modulo `m`. -/
def CoprimeMod {R : Type} [CommRing R] (m : R) (A B : R[X]) : Prop := ∃ U W, CongMod m (U * A + W * B) 1

section
variable {R : Type} [CommRing R] {m : R}

theorem CoprimeMod.iff {A B : R[X]} : CoprimeMod m A B ↔
    IsCoprime (A.map (Ideal.Quotient.mk (Ideal.span {m}))) (B.map (Ideal.Quotient.mk (Ideal.span {m}))) := by
  constructor
  · rintro ⟨U, W, hc⟩
    refine ⟨U.map (Ideal.Quotient.mk (Ideal.span {m})), W.map (Ideal.Quotient.mk (Ideal.span {m})), ?_⟩
    have := (map_mk_eq_iff _ _ _).2 hc
    simpa using this
  · rintro ⟨U, W, hc⟩
    obtain ⟨U, rfl⟩ := Polynomial.map_surjective _ Ideal.Quotient.mk_surjective U
    obtain ⟨W, rfl⟩ := Polynomial.map_surjective _ Ideal.Quotient.mk_surjective W
    refine ⟨U, W, (map_mk_eq_iff _ _ _).1 ?_⟩
    simpa using hc

theorem isCoprime_list_prod {S : Type} [CommRing S] {l : List S} {x : S} : IsCoprime l.prod x ↔ ∀ y ∈ l, IsCoprime y x := by
  induction l with
  | nil => simpa using isCoprime_one_left
  | cons y l ih => rw [List.prod_cons, IsCoprime.mul_left_iff, ih]; simp

theorem CoprimeMod.list_prod {l l' : List R[X]} : CoprimeMod m l.prod l'.prod ↔ ∀ x ∈ l, ∀ y ∈ l', CoprimeMod m x y := by
  simp only [CoprimeMod.iff, Polynomial.map_list_prod]
  rw [isCoprime_list_prod]
  simp only [List.forall_mem_map]
  refine forall₂_congr fun x _ => ?_
  rw [isCoprime_comm, isCoprime_list_prod]
  simp only [List.forall_mem_map, isCoprime_comm]

theorem CoprimeMod.congr {A B A' B' : R[X]} (h : CoprimeMod m A B) (ha : CongMod m A A') (hb : CongMod m B B') : CoprimeMod m A' B' := by
  obtain ⟨U, W, hc⟩ := h
  exact ⟨U, W, (((CongMod.refl _ _).mul ha.symm).add ((CongMod.refl _ _).mul hb.symm)).trans hc⟩

end

section
variable {α R : Type} [CommRing R] {S : EucOps α} {v : α → R} (h : S.Models v)
include h

theorem EucOps.Models.newField (factor : α → Option (Option (Factored α))) (p : α) (hf : isIrreducibleBy factor p = some true) (hp : v p ≠ 0) :
    S.newField factor p = some (S.quotientField p) := by
  unfold EucOps.newField
  simp only [hf, (h.toSemi.isZero_false p).2 hp, assertThat, Bool.not_false, if_true, Option.bind_eq_bind, Option.bind_some]

theorem EucOps.Models.fieldXgcd (p : α) (hp : Irreducible (v p)) (f g : List α) (hc : CoprimeMod (v p) (polyVal v f) (polyVal v g)) :
    ∃ u a b, (S.quotientField p).polyBezout.xgcd f g = some (u, a, b) ∧
      (S.quotientField p).poly.equal u (S.quotientField p).poly.one = true ∧
      CongMod (v p) (polyVal v a * polyVal v f + polyVal v b * polyVal v g) 1 := by
  obtain ⟨h1, h2⟩ := h.quotientField p hp
  obtain ⟨u, a, b, e1, e2, e3⟩ := fieldXgcd_coprime h2 h1 f g (by
    rw [polyVal_comp, polyVal_comp]; exact CoprimeMod.iff.1 hc)
  refine ⟨u, a, b, e1, e2, ?_⟩
  rw [← map_mk_eq_iff]
  simpa only [polyVal_comp, Polynomial.map_add, Polynomial.map_mul, Polynomial.map_one] using e3

theorem EucOps.Models.fieldXgcd_eq (p : α) (hp : Irreducible (v p)) (f g u a b : List α)
    (e : (S.quotientField p).polyBezout.xgcd f g = some (u, a, b))
    (e' : (S.quotientField p).poly.equal u (S.quotientField p).poly.one = true) :
    CongMod (v p) (polyVal v a * polyVal v f + polyVal v b * polyVal v g) 1 := by
  obtain ⟨h1, h2⟩ := h.quotientField p hp
  have e3 := Verif.Rings.fieldXgcd_eq h2 h1 f g u a b e e'
  rw [← map_mk_eq_iff]
  simpa only [polyVal_comp, Polynomial.map_add, Polynomial.map_mul, Polynomial.map_one] using e3

/-- the constructor succeeds on coprime factors -/
theorem EucOps.Models.henselImplNew [IsPrincipalIdealRing R] (factor : α → Option (Option (Factored α))) (p : α) (hp : Irreducible (v p))
    (hf : isIrreducibleBy factor p = some true) (hr : RemOne S v p) (n : Nat) (hn : 0 < n) (fs : List (List α)) (hne : fs ≠ [])
    (hm : ∀ f ∈ fs, (polyVal v f).Monic ∧ 0 < (polyVal v f).natDegree)
    (hco : fs.Pairwise fun f g => CoprimeMod (v p) (polyVal v f) (polyVal v g)) (hh : List α)
    (hlc : ¬ v p ∣ (polyVal v hh).leadingCoeff)
    (hc : CongMod (v p ^ n) (polyVal v hh) (C (polyVal v hh).leadingCoeff * (fs.map (polyVal v)).prod)) :
    ∃ pr, S.henselImplNew factor p n fs hh = some pr ∧ pr.Valid v false (v p) n hh ∧
      (2 ≤ fs.length ∨ (polyVal v hh).Monic →
        List.Forall₂ (fun x y => CongMod (v p ^ n) (polyVal v x) (polyVal v y)) (pr.factorList hh) fs) ∧
      (fs.length = 1 ↔ pr = .leaf) := by
  haveI := h.domain
  have hprodm : ∀ l : List (List α), (∀ f ∈ l, (polyVal v f).Monic ∧ 0 < (polyVal v f).natDegree) → ((l.map (polyVal v)).prod).Monic := by
    intro l hl
    induction l with
    | nil => simpa using monic_one
    | cons f l ih => simpa using (hl f (by simp)).1.mul (ih fun g hg => hl g (by simp [hg]))
  have hpn : ¬ v p ^ n ∣ (polyVal v hh).leadingCoeff := fun hd => hlc ((dvd_pow_self _ hn.ne').trans hd)
  induction hk : fs.length using Nat.strong_induction_on generalizing fs hh with
  | _ k ih =>
    match fs, hne with
    | [f], _ =>
      refine ⟨.leaf, by rw [EucOps.henselImplNew], ?_, ?_, by simp at hk; simp [← hk]⟩
      · rw [HenselProduct.Valid, natDegree_of_cong (hprodm [f] hm) _ rfl hpn hc]
        simpa using (hm f (by simp)).2
      · intro hor
        rcases hor with hor | hor
        · simp at hk; omega
        · refine .cons ?_ .nil
          rw [hor.leadingCoeff] at hc
          simpa using hc
    | x :: y :: rest, _ =>
      obtain ⟨l, hl⟩ : ∃ l, l = x :: y :: rest := ⟨_, rfl⟩
      have hlen : 2 ≤ l.length := by rw [hl]; simp
      have hunf : S.henselImplNew factor p n l hh = S.henselSplit factor p n hh (l.take (l.length / 2)) (l.drop (l.length / 2))
          (S.henselImplNew factor p n (l.take (l.length / 2))) (S.henselImplNew factor p n (l.drop (l.length / 2))) := by
        rw [hl, EucOps.henselImplNew]
      rw [← hl] at hm hco hc hk ⊢
      obtain ⟨l1, hl1⟩ : ∃ l1, l1 = l.take (l.length / 2) := ⟨_, rfl⟩
      obtain ⟨l2, hl2⟩ : ∃ l2, l2 = l.drop (l.length / 2) := ⟨_, rfl⟩
      have hsplit : l = l1 ++ l2 := by rw [hl1, hl2, List.take_append_drop]
      have hlen1 : l1.length = l.length / 2 := by rw [hl1, List.length_take]; omega
      have hlen2 : l2.length = l.length - l.length / 2 := by rw [hl2, List.length_drop]
      rw [hunf, ← hl1, ← hl2]
      have hm1 : ∀ f ∈ l1, (polyVal v f).Monic ∧ 0 < (polyVal v f).natDegree := fun f hf => hm f (by rw [hsplit]; simp [hf])
      have hm2 : ∀ f ∈ l2, (polyVal v f).Monic ∧ 0 < (polyVal v f).natDegree := fun f hf => hm f (by rw [hsplit]; simp [hf])
      rw [hsplit, List.pairwise_append] at hco
      obtain ⟨hco1, hco2, hco12⟩ := hco
      have hH0 : polyVal v hh ≠ 0 := fun e => hlc (by rw [e]; simp)
      obtain ⟨al, a1, a2⟩ := h.toSemi.polyLeadingCoeff_some hh hH0
      obtain ⟨g0, be, ga, x1, x2, -⟩ := h.xgcd_coprime al p (by rw [a2]; exact coprime_of_not_dvd hp hlc)
      have hpv : v (S.natPow p n) = v p ^ n := h.toSemi.natPow p n
      have hpv0 : v (S.natPow p n) ≠ 0 := by rw [hpv]; exact pow_ne_zero _ hp.ne_zero
      have hone : ∀ x, v x = 1 → v (S.reduce (S.natPow p n) x) = 1 := h.reduce_one hr _ n hn hpv
      have hprodv : ∀ l : List (List α), polyVal v (S.toSemiRingOps.poly.product l) = (l.map (polyVal v)).prod := fun l => h.toSemi.poly.product l
      obtain ⟨f, hfd⟩ : ∃ f, f = (S.toSemiRingOps.poly.product l1).map (S.reduce (S.natPow p n)) := ⟨_, rfl⟩
      obtain ⟨g, hgd⟩ : ∃ g, g = (S.toSemiRingOps.poly.product l2).map (S.reduce (S.natPow p n)) := ⟨_, rfl⟩
      have fc := (h.polyVal_reduce _ hpv0 (S.toSemiRingOps.poly.product l1)).1
      have gc := (h.polyVal_reduce _ hpv0 (S.toSemiRingOps.poly.product l2)).1
      have fm := h.polyVal_reduce_monic _ hpv0 hone (S.toSemiRingOps.poly.product l1) (by rw [hprodv]; exact hprodm l1 hm1)
      have gm := h.polyVal_reduce_monic _ hpv0 hone (S.toSemiRingOps.poly.product l2) (by rw [hprodv]; exact hprodm l2 hm2)
      rw [← hfd] at fc fm
      rw [← hgd] at gc gm
      rw [hprodv, hpv] at fc gc
      have hcop : CoprimeMod (v p) (polyVal v f) (polyVal v g) := by
        refine CoprimeMod.congr (CoprimeMod.list_prod.2 ?_) (fc.symm.mono (dvd_pow_self _ hn.ne')) (gc.symm.mono (dvd_pow_self _ hn.ne'))
        simp only [List.forall_mem_map]
        exact fun x hx y hy => hco12 x hx y hy
      obtain ⟨u, a, b, u1, u2, u3⟩ := h.fieldXgcd p hp f g hcop
      have hpu : ¬ v p ∣ (1 : R) := fun hd => hp.not_isUnit (isUnit_of_dvd_one hd)
      obtain ⟨fp, f1, f2, f3, -⟩ := ih l1.length (by omega) l1 (fun e => by rw [e] at hlen1; simp at hlen1; omega) hm1 hco1 f
        (by rw [fm.1.leadingCoeff]; exact hpu) (by rw [fm.1.leadingCoeff, C_1, one_mul]; exact fc)
        (by rw [fm.1.leadingCoeff]; exact fun hd => hpu ((dvd_pow_self _ hn.ne').trans hd)) rfl
      obtain ⟨gp, g1, g2, g3, -⟩ := ih l2.length (by omega) l2 (fun e => by rw [e] at hlen2; simp at hlen2; omega) hm2 hco2 g
        (by rw [gm.1.leadingCoeff]; exact hpu) (by rw [gm.1.leadingCoeff, C_1, one_mul]; exact gc)
        (by rw [gm.1.leadingCoeff]; exact fun hd => hpu ((dvd_pow_self _ hn.ne').trans hd)) rfl
      refine ⟨.branch f fp g gp a b, ?_, ⟨hlc, fm.1, gm.1, hc.trans ?_, u3, fun e => (by cases e), f2, g2⟩, ?_, ?_⟩
      · unfold EucOps.henselSplit
        have e1 : S.polyRemAll (S.natPow p n) (S.toSemiRingOps.poly.product l1) = some f := by rw [h.polyRemAll, hfd]
        have e2 : S.polyRemAll (S.natPow p n) (S.toSemiRingOps.poly.product l2) = some g := by rw [h.polyRemAll, hgd]
        simp only [a1, x1, x2, h.newField factor p hf hp.ne_zero, e1, e2, u1, u2, f1, g1, assertThat, if_true, Option.bind_eq_bind,
          Option.bind_some]
      · rw [hsplit, List.map_append, List.prod_append, mul_assoc]
        exact (CongMod.refl _ _).mul (fc.symm.mul gc.symm)
      · intro _
        rw [hsplit]
        exact List.rel_append (f3 (Or.inr fm.1)) (g3 (Or.inr gm.1))
      · constructor
        · intro e; omega
        · intro e; cases e

theorem EucOps.Models.henselProductOk (p : α) (hp : v p ≠ 0) (n : Nat) (hh : List α) (h0 : polyVal v hh ≠ 0) (fs : List (List α)) :
    ∃ c, S.henselProductOk p n hh fs = some c ∧
      (c = true ↔ CongMod (v p ^ n) (polyVal v hh) (C (polyVal v hh).leadingCoeff * (fs.map (polyVal v)).prod)) := by
  haveI := h.domain
  have hpv : v (S.natPow p n) = v p ^ n := h.toSemi.natPow p n
  have hpv0 : v (S.natPow p n) ≠ 0 := by rw [hpv]; exact pow_ne_zero _ hp
  obtain ⟨al, a1, a2⟩ := h.toSemi.polyLeadingCoeff_some hh h0
  have hP := h.quotientPoly _ hpv0
  refine ⟨(S.quotientRing (S.natPow p n)).poly.equal hh
      ((S.quotientRing (S.natPow p n)).poly.mul (polyConst al) ((S.quotientRing (S.natPow p n)).poly.product fs)), by
    unfold EucOps.henselProductOk
    simp only [h.newRing _ hpv0, a1, Option.bind_eq_bind, Option.bind_some], ?_⟩
  rw [hP.equal, hP.mul, hP.toSemi.product, ← hpv, ← map_mk_eq_iff, polyVal_const, a2, Polynomial.map_mul, Polynomial.map_list_prod, List.map_map]
  rfl

/-- The public constructor. -/
theorem EucOps.Models.henselNew [IsPrincipalIdealRing R] (lifted : Bool) (factor : α → Option (Option (Factored α))) (p : α)
    (hp : Irreducible (v p)) (hf : isIrreducibleBy factor p = some true) (hr : RemOne S v p) (n : Nat) (hn : 0 < n)
    (hl : lifted = true → n = 1) (fs : List (List α)) (hne : fs ≠ [])
    (hm : ∀ f ∈ fs, (polyVal v f).Monic ∧ 0 < (polyVal v f).natDegree)
    (hco : fs.Pairwise fun f g => CoprimeMod (v p) (polyVal v f) (polyVal v g)) (hh : List α)
    (hlc : ¬ v p ∣ (polyVal v hh).leadingCoeff)
    (hc : CongMod (v p ^ n) (polyVal v hh) (C (polyVal v hh).leadingCoeff * (fs.map (polyVal v)).prod)) :
    ∃ t, S.henselNew lifted factor p n hh fs = some t ∧ t.i = p ∧ t.n = n ∧ t.h = hh ∧ t.Valid v lifted ∧
      (2 ≤ fs.length ∨ (polyVal v hh).Monic →
        List.Forall₂ (fun x y => CongMod (v p ^ n) (polyVal v x) (polyVal v y)) t.factors fs) ∧
      (fs.length = 1 ↔ t.prod = .leaf) := by
  haveI := h.domain
  obtain ⟨pr, p1, p2, p3, p4⟩ := h.henselImplNew factor p hp hf hr n hn fs hne hm hco hh hlc hc
  have hv : pr.Valid v lifted (v p) n hh := by
    cases lifted with
    | false => exact p2
    | true =>
      have := hl rfl
      subst this
      exact p2.lift_one
  obtain ⟨c, c1, c2⟩ := h.henselProductOk p hp.ne_zero n hh (fun e => hlc (by rw [e]; simp)) fs
  have e1 : (fs.all fun f => S.polyIsMonic f) = true := by
    rw [List.all_eq_true]
    exact fun f hf => (h.toSemi.polyIsMonic f one_ne_zero).2 (hm f hf).1
  have e2 : decide (1 ≤ fs.length) = true := by
    rw [decide_eq_true_eq]; exact List.length_pos_of_ne_nil hne
  have e3 := h.henselCheck lifted p n hn hp.ne_zero hh pr hv
  refine ⟨⟨p, n, hh, pr⟩, ?_, rfl, rfl, rfl, ⟨hp, hn, hv⟩, p3, p4⟩
  unfold EucOps.henselNew
  simp only [hf, e1, e2, c1, c2.2 hc, p1, assertThat, if_true, Option.bind_eq_bind, Option.bind_some]
  unfold EucOps.henselFactCheck
  simp only [e3, if_true, Option.bind_some]

/-- when the constructor of the tree succeeds, the factors are coprime -/
theorem EucOps.Models.henselImplNew_coprime (factor : α → Option (Option (Factored α))) (p : α) (hp : Irreducible (v p))
    (n : Nat) (hn : 0 < n) (fs : List (List α)) (hh : List α) (pr : HenselProduct α) (e : S.henselImplNew factor p n fs hh = some pr) :
    fs ≠ [] ∧ fs.Pairwise fun f g => CoprimeMod (v p) (polyVal v f) (polyVal v g) := by
  haveI := h.domain
  induction hk : fs.length using Nat.strong_induction_on generalizing fs hh pr with
  | _ k ih =>
    match fs with
    | [] => rw [EucOps.henselImplNew] at e; cases e
    | [f] => exact ⟨by simp, by simp⟩
    | x :: y :: rest =>
      refine ⟨by simp, ?_⟩
      obtain ⟨l, hl⟩ : ∃ l, l = x :: y :: rest := ⟨_, rfl⟩
      have hlen : 2 ≤ l.length := by rw [hl]; simp
      have hunf : S.henselImplNew factor p n l hh = S.henselSplit factor p n hh (l.take (l.length / 2)) (l.drop (l.length / 2))
          (S.henselImplNew factor p n (l.take (l.length / 2))) (S.henselImplNew factor p n (l.drop (l.length / 2))) := by
        rw [hl, EucOps.henselImplNew]
      rw [← hl] at e hk ⊢
      rw [hunf] at e
      obtain ⟨l1, hl1⟩ : ∃ l1, l1 = l.take (l.length / 2) := ⟨_, rfl⟩
      obtain ⟨l2, hl2⟩ : ∃ l2, l2 = l.drop (l.length / 2) := ⟨_, rfl⟩
      have hsplit : l = l1 ++ l2 := by rw [hl1, hl2, List.take_append_drop]
      have hlen1 : l1.length = l.length / 2 := by rw [hl1, List.length_take]; omega
      have hlen2 : l2.length = l.length - l.length / 2 := by rw [hl2, List.length_drop]
      rw [← hl1, ← hl2] at e
      unfold EucOps.henselSplit at e
      simp only [Option.bind_eq_bind, Option.bind_eq_some_iff] at e
      obtain ⟨al, -, t, -, _, -, field, hfd, f, hf, g, hg, u, hu, _, hu1, fp, hfp, gp, hgp, -⟩ := e
      unfold EucOps.newField at hfd
      simp only [Option.bind_eq_bind, Option.bind_eq_some_iff] at hfd
      obtain ⟨irr, -, _, -, _, -, hfd⟩ := hfd
      cases hfd
      rw [h.polyRemAll] at hf hg
      cases hf
      cases hg
      have hu2 : (S.quotientField p).poly.equal u.1 (S.quotientField p).poly.one = true := by
        unfold assertThat at hu1
        split at hu1
        · assumption
        · cases hu1
      have hpv : v (S.natPow p n) = v p ^ n := h.toSemi.natPow p n
      have hpv0 : v (S.natPow p n) ≠ 0 := by rw [hpv]; exact pow_ne_zero _ hp.ne_zero
      have hcc := h.fieldXgcd_eq p hp _ _ u.1 u.2.1 u.2.2 hu hu2
      have fc := (h.polyVal_reduce _ hpv0 (S.toSemiRingOps.poly.product l1)).1
      have gc := (h.polyVal_reduce _ hpv0 (S.toSemiRingOps.poly.product l2)).1
      have hprodv : ∀ l : List (List α), polyVal v (S.toSemiRingOps.poly.product l) = (l.map (polyVal v)).prod := fun l => h.toSemi.poly.product l
      rw [hprodv, hpv] at fc gc
      have hcop := CoprimeMod.congr ⟨_, _, hcc⟩ (fc.mono (dvd_pow_self _ hn.ne')) (gc.mono (dvd_pow_self _ hn.ne'))
      rw [CoprimeMod.list_prod] at hcop
      simp only [List.forall_mem_map] at hcop
      rw [hsplit, List.pairwise_append]
      exact ⟨(ih l1.length (by omega) l1 _ _ hfp rfl).2, (ih l2.length (by omega) l2 _ _ hgp rfl).2, hcop⟩

/-- when the public constructor succeeds, its documented conditions hold -/
theorem EucOps.Models.henselNew_only (lifted : Bool) (factor : α → Option (Option (Factored α))) (p : α)
    (hp : Irreducible (v p)) (n : Nat) (hn : 0 < n) (fs : List (List α)) (hh : List α) (t : HenselFact α)
    (e : S.henselNew lifted factor p n hh fs = some t) :
    fs ≠ [] ∧ (∀ f ∈ fs, (polyVal v f).Monic) ∧ polyVal v hh ≠ 0 ∧
      CongMod (v p ^ n) (polyVal v hh) (C (polyVal v hh).leadingCoeff * (fs.map (polyVal v)).prod) ∧
      fs.Pairwise fun f g => CoprimeMod (v p) (polyVal v f) (polyVal v g) := by
  haveI := h.domain
  have hat : ∀ (b : Bool) (u : Unit), assertThat b = some u → b = true := by
    intro b u hb
    unfold assertThat at hb
    split at hb
    · assumption
    · cases hb
  unfold EucOps.henselNew at e
  simp only [Option.bind_eq_bind, Option.bind_eq_some_iff] at e
  obtain ⟨irr, -, _, -, _, -, _, h3, ok, h4, _, h5, pr, h6, -⟩ := e
  have hh0 : polyVal v hh ≠ 0 := by
    intro hz
    unfold EucOps.henselProductOk at h4
    rw [h.toSemi.polyLeadingCoeff_none hh hz] at h4
    simp only [Option.bind_eq_bind, Option.bind_eq_some_iff, Option.bind_none] at h4
    obtain ⟨_, _, h4⟩ := h4
    cases h4
  obtain ⟨c, c1, c2⟩ := h.henselProductOk p hp.ne_zero n hh hh0 fs
  rw [c1] at h4
  cases h4
  obtain ⟨i1, i2⟩ := h.henselImplNew_coprime factor p hp n hn fs hh pr h6
  refine ⟨i1, fun f hf => ?_, hh0, c2.1 (hat _ _ h5), i2⟩
  have := hat _ _ h3
  rw [List.all_eq_true] at this
  exact (h.toSemi.polyIsMonic f one_ne_zero).1 (this f hf)

end
end Verif.Rings
