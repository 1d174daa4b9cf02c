import Verif.Proofs.HenselNew
import Verif.Proofs.Factored
import Mathlib.RingTheory.Polynomial.Nilpotent

/-!
# Hensel factorizations: from a factorization modulo a prime; uniqueness
-/

namespace Verif.Rings

open Polynomial

section Unique
variable {R : Type} [CommRing R]

/-- coprimality lifts from the modulus `p` to its powers -/
theorem CoprimeMod.pow {p : R} {A B : R[X]} (h : CoprimeMod p A B) (n : Nat) : CoprimeMod (p ^ n) A B := by
  obtain ⟨U, W, hc⟩ := h
  rw [CoprimeMod.iff]
  obtain ⟨E, hE⟩ := congMod_iff.1 hc
  obtain ⟨φ, hφ⟩ : ∃ φ, φ = Polynomial.mapRingHom (Ideal.Quotient.mk (Ideal.span {p ^ n})) := ⟨_, rfl⟩
  have hnil : IsNilpotent (φ (C p * E)) := by
    refine ⟨n, ?_⟩
    rw [← map_pow, mul_pow, ← C_pow, map_mul]
    have : φ (C (p ^ n)) = 0 := by
      rw [hφ, coe_mapRingHom, map_C, Ideal.Quotient.eq_zero_iff_mem.2 (Ideal.mem_span_singleton_self _), C_0]
    rw [this, zero_mul]
  have hu : IsUnit (φ U * φ A + φ W * φ B) := by
    have : φ U * φ A + φ W * φ B = 1 + φ (C p * E) := by
      rw [← hE]; simp only [map_add, map_sub, map_mul, map_one]; ring
    rw [this]
    exact hnil.isUnit_one_add
  obtain ⟨u, hu⟩ := hu
  have hAB : IsCoprime (φ A) (φ B) := ⟨((u⁻¹ : _ˣ) : _) * φ U, ((u⁻¹ : _ˣ) : _) * φ W, by
    rw [mul_assoc, mul_assoc, ← mul_add, ← hu, Units.inv_mul]⟩
  rw [hφ] at hAB
  exact hAB

/-- Hensel lifts are unique: two factors. -/
theorem hensel_unique {p : R} {n : Nat} {A B A' B' : R[X]} (hA : A.Monic) (hA' : A'.Monic) (hd : A'.natDegree = A.natDegree)
    (hprod : CongMod (p ^ n) (A * B) (A' * B')) (hco : CoprimeMod p A B') : CongMod (p ^ n) A A' := by
  have h1 := CoprimeMod.iff.1 (hco.pow n)
  have h2 := (map_mk_eq_iff _ _ _).2 hprod
  rw [Polynomial.map_mul, Polynomial.map_mul] at h2
  have h3 : A.map (Ideal.Quotient.mk (Ideal.span {p ^ n})) ∣ A'.map (Ideal.Quotient.mk (Ideal.span {p ^ n})) :=
    h1.dvd_of_dvd_mul_right (Dvd.intro _ h2)
  rcases subsingleton_or_nontrivial (R ⧸ Ideal.span {p ^ n}) with hs | hs
  · exact (map_mk_eq_iff _ _ _).1 (Subsingleton.elim _ _)
  · refine ((map_mk_eq_iff _ _ _).1 ?_).symm
    exact eq_of_monic_of_dvd_of_natDegree_le (hA.map _) (hA'.map _) h3 (by rw [hA.natDegree_map, hA'.natDegree_map, hd])

theorem monic_list_prod {l : List R[X]} (h : ∀ x ∈ l, x.Monic) : l.prod.Monic := by
  induction l with
  | nil => simpa using monic_one
  | cons x l ih => rw [List.prod_cons]; exact (h x (by simp)).mul (ih fun y hy => h y (by simp [hy]))

theorem natDegree_eq_of_cong [IsDomain R] {p : R} (hp : ¬ IsUnit p) {A B : R[X]} (hA : A.Monic) (hB : B.Monic)
    (hc : CongMod p A B) : A.natDegree = B.natDegree :=
  natDegree_of_cong (m := p) hB 1 hA.leadingCoeff.symm (fun hd => hp (isUnit_of_dvd_one hd)) (by simpa using hc)

/-- Hensel lifts are unique. -/
theorem hensel_unique_list [IsDomain R] {p : R} (hp : ¬ IsUnit p) {n : Nat} {l l' : List R[X]} (hl : ∀ x ∈ l, x.Monic) (hl' : ∀ x ∈ l', x.Monic)
    (hc : List.Forall₂ (CongMod p) l l') (hco : l.Pairwise (CoprimeMod p)) (hprod : CongMod (p ^ n) l.prod l'.prod) :
    List.Forall₂ (CongMod (p ^ n)) l l' := by
  induction hc with
  | nil => exact .nil
  | @cons x y l l' hxy hll ih =>
    rw [List.pairwise_cons] at hco
    rw [List.prod_cons, List.prod_cons] at hprod
    have hx := hl x (by simp)
    have hy := hl' y (by simp)
    have hxd := natDegree_eq_of_cong hp hx hy hxy
    have hcx : CoprimeMod p x l.prod := by
      have : CoprimeMod p [x].prod l.prod := CoprimeMod.list_prod.2 (by simpa using hco.1)
      simpa using this
    have e := hensel_unique hx hy hxd.symm hprod (hcx.congr (.refl _ _) (CongMod.list_prod hll))
    refine .cons e (ih (fun z hz => hl z (by simp [hz])) (fun z hz => hl' z (by simp [hz])) hco.2 ?_)
    have hml := monic_list_prod (l := l) fun z hz => hl z (by simp [hz])
    have hml' := monic_list_prod (l := l') fun z hz => hl' z (by simp [hz])
    refine hensel_unique (B := x) (B' := y) hml hml' (natDegree_eq_of_cong hp hml hml' (CongMod.list_prod hll)).symm
      (by rw [mul_comm, mul_comm l'.prod]; exact hprod) ?_
    obtain ⟨U, W, h1⟩ := hcx.congr hxy (.refl _ _)
    exact ⟨W, U, by rw [add_comm]; exact h1⟩

end Unique

section Field
variable {α K : Type} [CommRing K] (hK : IsField K)
include hK

theorem isCoprime_of_monic_irreducible {A B : K[X]} (hA : Irreducible A) (hB : Irreducible B) (mA : A.Monic) (mB : B.Monic) (hne : A ≠ B) :
    IsCoprime A B := by
  letI : Field K := hK.toField
  have hA' : Irreducible (M := K[X]) A := hA
  have hB' : Irreducible (M := K[X]) B := hB
  have : IsCoprime (R := K[X]) A B := by
    rw [hA'.coprime_iff_not_dvd]
    intro hd
    exact hne (eq_of_monic_of_associated mA mB ((hA'.dvd_irreducible_iff_associated hB').1 hd))
  exact this

theorem irreducible_natDegree_pos {A : K[X]} (hA : Irreducible A) : 0 < A.natDegree := by
  letI : Field K := hK.toField
  have hA' : Irreducible (M := K[X]) A := hA
  exact hA'.natDegree_pos

end Field

theorem squarefreeFactors_some {β : Type} (l : List (β × Nat)) (h : ∀ x ∈ l, x.2 = 1) : squarefreeFactors l = some (l.map (·.1)) := by
  induction l with
  | nil => rfl
  | cons x l ih =>
    obtain ⟨f, k⟩ := x
    have hk : k = 1 := h (f, k) (by simp)
    rw [squarefreeFactors, if_pos hk, ih fun y hy => h y (by simp [hy])]
    rfl

theorem squarefreeFactors_none {β : Type} (l : List (β × Nat)) (x : β × Nat) (hx : x ∈ l) (h : x.2 ≠ 1) : squarefreeFactors l = none := by
  induction l with
  | nil => simp at hx
  | cons y l ih =>
    obtain ⟨f, k⟩ := y
    rw [squarefreeFactors]
    split
    · rename_i hk
      rcases List.mem_cons.1 hx with rfl | hx'
      · exact absurd hk h
      · rw [ih hx']; rfl
    · rfl

section
variable {α R : Type} [CommRing R] {S : EucOps α} {v : α → R} (h : S.Models v)
include h

/-- A factorization modulo `p` into distinct monic polynomials becomes a Hensel factorization. -/
theorem EucOps.Models.intoHensel [IsPrincipalIdealRing R] (factor : α → Option (Option (Factored α))) (p : α)
    (hp : Irreducible (v p)) (hf : isIrreducibleBy factor p = some true) (hr : RemOne S v p) (hh : List α)
    (hlc : ¬ v p ∣ (polyVal v hh).leadingCoeff) (hd : 0 < (polyVal v hh).natDegree) (fact : Factored (List α))
    (hv : fact.Valid (S.quotientField p).polyEuc.toFavOps (fun L => (polyVal v L).map (Ideal.Quotient.mk (Ideal.span {v p}))))
    (he : fact.denote (fun L => (polyVal v L).map (Ideal.Quotient.mk (Ideal.span {v p}))) = (polyVal v hh).map (Ideal.Quotient.mk (Ideal.span {v p})))
    (hm : ∀ f ∈ fact.factors, (polyVal v f.1).Monic) :
    ((∃ f ∈ fact.factors, f.2 ≠ 1) → S.intoHensel factor p fact hh = some none) ∧
    ((∀ f ∈ fact.factors, f.2 = 1) → ∃ t, S.intoHensel factor p fact hh = some (some t) ∧ t.i = p ∧ t.n = 1 ∧ t.h = hh ∧
      t.Valid v true ∧ (2 ≤ fact.factors.length ∨ (polyVal v hh).Monic →
        List.Forall₂ (fun x y => CongMod (v p) (polyVal v x) (polyVal v y)) t.factors (fact.factors.map (·.1))) ∧
      (fact.factors.length = 1 ↔ t.prod = .leaf)) := by
  haveI := h.domain
  constructor
  · rintro ⟨f, hf, hk⟩
    unfold EucOps.intoHensel
    rw [squarefreeFactors_none _ f hf hk]
  intro hk
  have hs := squarefreeFactors_some _ hk
  have hK := (h.quotientField p hp).2
  haveI : IsDomain (R ⧸ Ideal.span {v p}) := hK.isDomain
  have hlc' : Ideal.Quotient.mk (Ideal.span {v p}) (polyVal v hh).leadingCoeff ≠ 0 := by
    rw [Ne, Ideal.Quotient.eq_zero_iff_mem, Ideal.mem_span_singleton]; exact hlc
  have hprod : (fact.factors.map fun q => (fun L => (polyVal v L).map (Ideal.Quotient.mk (Ideal.span {v p}))) q.1 ^ q.2).prod
      = (((fact.factors.map (·.1)).map (polyVal v)).prod).map (Ideal.Quotient.mk (Ideal.span {v p})) := by
    rw [Polynomial.map_list_prod, List.map_map, List.map_map]
    congr 1
    refine List.map_congr_left fun x hx => ?_
    simp [hk x hx]
  have hPm : (((fact.factors.map (·.1)).map (polyVal v)).prod).Monic := by
    refine monic_list_prod ?_
    simp only [List.forall_mem_map]
    exact hm
  have hcong : CongMod (v p) (polyVal v hh) (C (polyVal v hh).leadingCoeff * ((fact.factors.map (·.1)).map (polyVal v)).prod) := by
    rw [← map_mk_eq_iff]
    rw [Factored.denote, hprod] at he
    obtain ⟨u, hu1, hu2⟩ := Polynomial.isUnit_iff.1 hv.unit
    rw [← hu2] at he
    have := congrArg leadingCoeff he
    rw [leadingCoeff_mul, leadingCoeff_C, (hPm.map _).leadingCoeff, mul_one, leadingCoeff_map_of_leadingCoeff_ne_zero _ hlc'] at this
    rw [← he, this, Polynomial.map_mul, map_C]
  have hne : fact.factors.map (·.1) ≠ [] := by
    intro e0
    have := natDegree_of_cong hPm _ rfl hlc hcong
    rw [e0] at this
    simp at this
    omega
  obtain ⟨t, t1, t2, t3, t4, t5, t6, t7⟩ := h.henselNew true factor p hp hf hr 1 one_pos (fun _ => rfl) (fact.factors.map (·.1)) hne
    (by
      simp only [List.forall_mem_map]
      intro f hf
      refine ⟨hm f hf, ?_⟩
      have := irreducible_natDegree_pos hK (hv.irreducible f hf)
      rwa [(hm f hf).natDegree_map] at this)
    (by
      rw [List.pairwise_map]
      have hdis := hv.distinct
      rw [List.Nodup, List.pairwise_map] at hdis
      refine hdis.imp_of_mem ?_
      intro a b ha hb hne
      rw [CoprimeMod.iff]
      exact isCoprime_of_monic_irreducible hK (hv.irreducible a ha) (hv.irreducible b hb) ((hm a ha).map _) ((hm b hb).map _) hne)
    hh hlc (by rw [pow_one]; exact hcong)
  rw [List.length_map] at t6 t7
  refine ⟨t, ?_, t2, t3, t4, t5, by simpa using t6, t7⟩
  have hchk : S.henselFactCheck true t = some true := by
    unfold EucOps.henselFactCheck
    exact h.henselCheck true t.i t.n t5.pos t5.irreducible.ne_zero t.h t.prod t5.tree
  unfold EucOps.intoHensel
  rw [hs]
  simp only [t1, hchk, assertThat, if_true, Option.bind_eq_bind, Option.bind_some]

/-- `k` linear lifts in a row. -/
def EucOps.henselLinearLifts {α : Type} (S : EucOps α) : Nat → HenselFact α → Option (HenselFact α)
  | 0, t => some t
  | k + 1, t => (S.henselLinearLift t).bind (EucOps.henselLinearLifts S k)

/-- `k` quadratic lifts in a row. -/
def EucOps.henselQuadraticLifts {α : Type} (S : EucOps α) : Nat → HenselFact α → Option (HenselFact α)
  | 0, t => some t
  | k + 1, t => (S.henselQuadraticLift t).bind (EucOps.henselQuadraticLifts S k)

theorem EucOps.Models.henselLinearLift [IsPrincipalIdealRing R] (t : HenselFact α) (ht : t.Valid v false) (hr : RemOne S v t.i) :
    ∃ t', S.henselLinearLift t = some t' ∧ t'.Valid v false ∧ t'.i = t.i ∧ t'.n = t.n + 1 ∧ t'.h = t.h ∧
      List.Forall₂ (fun x y => CongMod (v t.i ^ t.n) (polyVal v x) (polyVal v y)) t'.factors t.factors ∧
      (t'.prod = .leaf ↔ t.prod = .leaf) := by
  obtain ⟨pr, p1, p2, p3⟩ := h.henselLinear t.i ht.irreducible hr t.n ht.pos t.h t.h t.prod ht.tree (.refl _ _) rfl rfl
  refine ⟨{ t with n := t.n + 1, prod := pr }, by rw [EucOps.henselLinearLift, p1]; rfl, ⟨ht.irreducible, Nat.succ_pos _, p2⟩, rfl, rfl, rfl, p3, ?_⟩
  cases hpr : t.prod with
  | leaf => rw [hpr, EucOps.henselLinear] at p1; cases p1; simp
  | branch f fp g gp a b =>
    rw [hpr, EucOps.henselLinear] at p1
    simp only [Option.bind_eq_bind, Option.bind_eq_some_iff] at p1
    obtain ⟨_, _, _, _, _, _, _, _, _, _, p1⟩ := p1
    cases p1
    simp

theorem EucOps.Models.henselQuadraticLift [IsPrincipalIdealRing R] (t : HenselFact α) (ht : t.Valid v true) (hr : RemOne S v t.i) :
    ∃ t', S.henselQuadraticLift t = some t' ∧ t'.Valid v true ∧ t'.i = t.i ∧ t'.n = t.n * 2 ∧ t'.h = t.h ∧
      List.Forall₂ (fun x y => CongMod (v t.i ^ t.n) (polyVal v x) (polyVal v y)) t'.factors t.factors ∧
      (t'.prod = .leaf ↔ t.prod = .leaf) := by
  obtain ⟨pr, p1, p2, p3⟩ := h.henselQuadratic t.i ht.irreducible hr t.n ht.pos t.h t.h t.prod ht.tree (.refl _ _) rfl rfl
  have hp2 : 0 < t.n * 2 := Nat.mul_pos ht.pos (by omega)
  refine ⟨{ t with n := t.n * 2, prod := pr }, by rw [EucOps.henselQuadraticLift, p1]; rfl, ⟨ht.irreducible, hp2, p2⟩, rfl, rfl, rfl, p3, ?_⟩
  cases hpr : t.prod with
  | leaf => rw [hpr, EucOps.henselQuadratic] at p1; cases p1; simp
  | branch f fp g gp a b =>
    rw [hpr, EucOps.henselQuadratic] at p1
    simp only [Option.bind_eq_bind, Option.bind_eq_some_iff] at p1
    obtain ⟨_, _, _, _, _, _, _, _, _, _, _, _, _, _, p1⟩ := p1
    cases p1
    simp

omit h in
theorem forall₂_cong_trans {m : R} {l1 l2 l3 : List (List α)} (h1 : List.Forall₂ (fun x y => CongMod m (polyVal v x) (polyVal v y)) l1 l2)
    (h2 : List.Forall₂ (fun x y => CongMod m (polyVal v x) (polyVal v y)) l2 l3) :
    List.Forall₂ (fun x y => CongMod m (polyVal v x) (polyVal v y)) l1 l3 := by
  induction h1 generalizing l3 with
  | nil => exact h2
  | cons h _ ih =>
    cases h2 with
    | cons h' h2' => exact .cons (h.trans h') (ih h2')

omit h in
theorem forall₂_cong_refl (m : R) (l : List (List α)) : List.Forall₂ (fun x y => CongMod m (polyVal v x) (polyVal v y)) l l := by
  induction l with
  | nil => exact .nil
  | cons x l ih => exact .cons (.refl _ _) ih

theorem EucOps.Models.henselLinearLifts [IsPrincipalIdealRing R] (k : Nat) (t : HenselFact α) (ht : t.Valid v false) (hr : RemOne S v t.i) :
    ∃ t', S.henselLinearLifts k t = some t' ∧ t'.Valid v false ∧ t'.i = t.i ∧ t'.n = t.n + k ∧ t'.h = t.h ∧
      List.Forall₂ (fun x y => CongMod (v t.i ^ t.n) (polyVal v x) (polyVal v y)) t'.factors t.factors ∧
      (t'.prod = .leaf ↔ t.prod = .leaf) := by
  induction k generalizing t with
  | zero => exact ⟨t, rfl, ht, rfl, rfl, rfl, forall₂_cong_refl _ _, Iff.rfl⟩
  | succ k ih =>
    obtain ⟨t1, a1, a2, a3, a4, a5, a6, a7⟩ := h.henselLinearLift t ht hr
    obtain ⟨t2, b1, b2, b3, b4, b5, b6, b7⟩ := ih t1 a2 (a3 ▸ hr)
    rw [a3] at b6
    refine ⟨t2, by rw [EucOps.henselLinearLifts, a1]; exact b1, b2, by rw [b3, a3], by rw [b4, a4]; omega, by rw [b5, a5], ?_, b7.trans a7⟩
    exact forall₂_cong_trans (b6.imp fun x y hxy => hxy.mono (pow_dvd_pow _ (by omega))) a6

theorem EucOps.Models.henselQuadraticLifts [IsPrincipalIdealRing R] (k : Nat) (t : HenselFact α) (ht : t.Valid v true) (hr : RemOne S v t.i) :
    ∃ t', S.henselQuadraticLifts k t = some t' ∧ t'.Valid v true ∧ t'.i = t.i ∧ t'.n = t.n * 2 ^ k ∧ t'.h = t.h ∧
      List.Forall₂ (fun x y => CongMod (v t.i ^ t.n) (polyVal v x) (polyVal v y)) t'.factors t.factors ∧
      (t'.prod = .leaf ↔ t.prod = .leaf) := by
  induction k generalizing t with
  | zero => exact ⟨t, rfl, ht, rfl, by simp, rfl, forall₂_cong_refl _ _, Iff.rfl⟩
  | succ k ih =>
    obtain ⟨t1, a1, a2, a3, a4, a5, a6, a7⟩ := h.henselQuadraticLift t ht hr
    obtain ⟨t2, b1, b2, b3, b4, b5, b6, b7⟩ := ih t1 a2 (a3 ▸ hr)
    rw [a3] at b6
    refine ⟨t2, by rw [EucOps.henselQuadraticLifts, a1]; exact b1, b2, by rw [b3, a3], by rw [b4, a4, pow_succ]; ring, by rw [b5, a5], ?_, b7.trans a7⟩
    exact forall₂_cong_trans (b6.imp fun x y hxy => hxy.mono (pow_dvd_pow _ (by omega))) a6

/-- the factors of a valid factorization that has a branch -/
theorem EucOps.Models.hensel_factors (lifted : Bool) (t : HenselFact α) (ht : t.Valid v lifted) (hb : t.prod ≠ .leaf) :
    (∀ x ∈ t.factors, (polyVal v x).Monic ∧ 0 < (polyVal v x).natDegree) ∧
    CongMod (v (S.henselModulus t)) (polyVal v t.h) (C (polyVal v t.h).leadingCoeff * (t.factors.map (polyVal v)).prod) := by
  haveI := h.domain
  have hm : v (S.henselModulus t) = v t.i ^ t.n := h.toSemi.natPow _ _
  rw [hm]
  obtain ⟨i, n, hh, pr⟩ := t
  cases pr with
  | leaf => exact absurd rfl hb
  | branch f fp g gp a b => exact HenselProduct.Valid.factors ht.pos ht.tree

end
end Verif.Rings
