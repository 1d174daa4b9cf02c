import Verif.Proofs.SqfreeFinite
import Verif.Proofs.LatticeSolve
import Verif.Proofs.LatticeAffine2
import Verif.Proofs.LatticeHyper
import Verif.Proofs.Factored
import Mathlib.FieldTheory.Finite.Basic

/-!
# Berlekamp's algorithm
-/

namespace Verif.Rings

open Polynomial

section Pure
variable {K : Type} [Field K]

theorem dvd_sub_polyMod (a f : K[X]) : f ∣ a - a % f := ⟨a / f, by
  have := EuclideanDomain.div_add_mod a f
  linear_combination -this⟩

/-- the polynomial with the given coefficients -/
noncomputable def vecPoly {n : Nat} (x : Fin n → K) : K[X] := ∑ i, C (x i) * X ^ (i : Nat)

theorem coeff_vecPoly {n : Nat} (x : Fin n → K) (j : Fin n) : (vecPoly x).coeff j = x j := by
  unfold vecPoly
  simp only [finsetSum_coeff, coeff_C_mul, coeff_X_pow]
  rw [Finset.sum_eq_single j]
  · simp
  · intro i _ hij
    rw [if_neg (fun e => hij (Fin.ext e.symm)), mul_zero]
  · simp

theorem coeff_vecPoly_ge {n : Nat} (x : Fin n → K) (j : Nat) (hj : n ≤ j) : (vecPoly x).coeff j = 0 := by
  unfold vecPoly
  simp only [finsetSum_coeff, coeff_C_mul, coeff_X_pow]
  refine Finset.sum_eq_zero fun i _ => ?_
  rw [if_neg (by omega), mul_zero]

theorem vecPoly_degree {n : Nat} (x : Fin n → K) : (vecPoly x).degree < n := by
  rw [degree_lt_iff_coeff_zero]
  exact fun m hm => coeff_vecPoly_ge x m hm

theorem vecPoly_of_degree {n : Nat} (f : K[X]) (hf : f.degree < n) : vecPoly (fun i : Fin n => f.coeff i) = f := by
  ext j
  by_cases hj : j < n
  · exact coeff_vecPoly _ ⟨j, hj⟩
  · rw [coeff_vecPoly_ge _ _ (by omega), (degree_lt_iff_coeff_zero f n).1 hf j (by omega)]

theorem vecPoly_eq_zero {n : Nat} (x : Fin n → K) (h : vecPoly x = 0) : x = 0 := by
  funext j
  rw [← coeff_vecPoly x j, h]; rfl

theorem vecPoly_add {n : Nat} (x y : Fin n → K) : vecPoly (x + y) = vecPoly x + vecPoly y := by
  unfold vecPoly
  rw [← Finset.sum_add_distrib]
  exact Finset.sum_congr rfl fun i _ => by rw [Pi.add_apply, map_add, add_mul]

theorem vecPoly_smul {n : Nat} (a : K) (x : Fin n → K) : vecPoly (a • x) = C a * vecPoly x := by
  unfold vecPoly
  rw [Finset.mul_sum]
  exact Finset.sum_congr rfl fun i _ => by rw [Pi.smul_apply, smul_eq_mul, map_mul, mul_assoc]

theorem vecPoly_sum {n : Nat} {ι : Type} (s : Finset ι) (x : ι → Fin n → K) : vecPoly (∑ i ∈ s, x i) = ∑ i ∈ s, vecPoly (x i) := by
  classical
  induction s using Finset.induction_on with
  | empty => simp [vecPoly]
  | insert a s ha ih => rw [Finset.sum_insert ha, Finset.sum_insert ha, vecPoly_add, ih]

/-- the `q`-th power of a polynomial over a field with `q` elements -/
theorem vecPoly_pow_card [Finite K] {n : Nat} (x : Fin n → K) (q : Nat) (hq : Nat.card K = q) :
    vecPoly x ^ q = ∑ i, C (x i) * X ^ ((i : Nat) * q) := by
  haveI : Fintype K := Fintype.ofFinite K
  have := FiniteField.expand_card (vecPoly x)
  rw [← Nat.card_eq_fintype_card, hq] at this
  rw [← this, vecPoly, map_sum]
  refine Finset.sum_congr rfl fun i _ => ?_
  rw [map_mul, expand_C, map_pow, expand_X, ← pow_mul, mul_comm q]

/-- the kernel of the Berlekamp matrix -/
theorem berlekamp_kernel [Finite K] {n : Nat} (f : K[X]) (hf : f ≠ 0) (hn : f.natDegree = n) (q : Nat) (hq : Nat.card K = q)
    (B : Matrix (Fin n) (Fin n) K) (hB : ∀ i j, B i j = ((X ^ ((i : Nat) * q) - X ^ (i : Nat)) % f).coeff j) (x : Matrix (Fin 1) (Fin n) K) :
    x * B = 0 ↔ f ∣ vecPoly (x 0) ^ q - vecPoly (x 0) := by
  have hrow : ∀ i : Fin n, vecPoly (B i) = (X ^ ((i : Nat) * q) - X ^ (i : Nat)) % f := by
    intro i
    have : B i = fun j : Fin n => ((X ^ ((i : Nat) * q) - X ^ (i : Nat)) % f).coeff j := by funext j; exact hB i j
    rw [this, vecPoly_of_degree]
    have : ((X ^ ((i : Nat) * q) - X ^ (i : Nat)) % f).degree < f.degree := EuclideanDomain.mod_lt _ hf
    rw [degree_eq_natDegree hf, hn] at this
    exact this
  have hxB : (x * B) 0 = ∑ i, x 0 i • B i := by
    funext j
    rw [Matrix.mul_apply, Finset.sum_apply]
    rfl
  have hval : vecPoly ((x * B) 0) = ∑ i, C (x 0 i) * ((X ^ ((i : Nat) * q) - X ^ (i : Nat)) % f) := by
    rw [hxB, vecPoly_sum]
    exact Finset.sum_congr rfl fun i _ => by rw [vecPoly_smul, hrow]
  have hcong : f ∣ (vecPoly (x 0) ^ q - vecPoly (x 0)) - vecPoly ((x * B) 0) := by
    rw [vecPoly_pow_card _ q hq, hval]
    conv in vecPoly (x 0) => unfold vecPoly
    rw [← Finset.sum_sub_distrib, ← Finset.sum_sub_distrib]
    refine Finset.dvd_sum fun i _ => ?_
    rw [← mul_sub, ← mul_sub]
    refine Dvd.dvd.mul_left ?_ _
    exact dvd_sub_polyMod _ _
  constructor
  · intro h
    rw [h] at hcong
    have h0 : vecPoly ((0 : Matrix (Fin 1) (Fin n) K) 0) = 0 := by simp [vecPoly]
    rwa [h0, sub_zero] at hcong
  · intro h
    have h1 : f ∣ vecPoly ((x * B) 0) := (dvd_sub_right h).1 hcong
    have h2 : vecPoly ((x * B) 0) = 0 := by
      refine eq_zero_of_dvd_of_degree_lt h1 ?_
      rw [degree_eq_natDegree hf, hn]
      exact vecPoly_degree _
    have h3 := vecPoly_eq_zero _ h2
    ext i j
    rw [Subsingleton.elim i 0, h3]; rfl

/-- an idempotent that separates two coprime factors -/
theorem berlekamp_separate [Finite K] (q : Nat) (hq : Nat.card K = q) {a b : K[X]} (hab : IsCoprime a b) (h0 : a * b ≠ 0) :
    ∃ h : K[X], h.degree < (a * b).degree ∧ a * b ∣ h ^ q - h ∧ a ∣ h ∧ b ∣ h - 1 := by
  haveI : Fintype K := Fintype.ofFinite K
  have hq0 : q ≠ 0 := by
    rw [← hq]; exact Nat.card_pos.ne'
  obtain ⟨s, t, hst⟩ := hab
  refine ⟨s * a % (a * b), EuclideanDomain.mod_lt _ h0, ?_, ?_, ?_⟩
  · have h1 : a ∣ s * a % (a * b) := (EuclideanDomain.dvd_mod_iff (dvd_mul_right a b)).2 (dvd_mul_left a s)
    have h2 : b ∣ s * a % (a * b) - 1 := by
      have : b ∣ s * a - s * a % (a * b) := (dvd_mul_left b a).trans (dvd_sub_polyMod _ _)
      have h3 : b ∣ s * a - 1 := ⟨-t, by rw [← hst]; ring⟩
      have := dvd_sub h3 this
      rwa [sub_sub_sub_cancel_left] at this
    refine IsCoprime.mul_dvd ⟨s, t, hst⟩ ?_ ?_
    · exact dvd_sub (dvd_pow h1 hq0) h1
    · have h4 : b ∣ (s * a % (a * b)) ^ q - 1 ^ q := h2.trans (sub_dvd_pow_sub_pow _ _ _)
      rw [one_pow] at h4
      have := dvd_sub h4 h2
      rwa [sub_sub_sub_cancel_right] at this
  · exact (EuclideanDomain.dvd_mod_iff (dvd_mul_right a b)).2 (dvd_mul_left a s)
  · have : b ∣ s * a - s * a % (a * b) := (dvd_mul_left b a).trans (dvd_sub_polyMod _ _)
    have h3 : b ∣ s * a - 1 := ⟨-t, by rw [← hst]; ring⟩
    have := dvd_sub h3 this
    rwa [sub_sub_sub_cancel_left] at this

end Pure

section Code
variable {α K : Type} [Field K] {F : FinFieldOps α} {v : α → K} (h : F.Models v)
include h

theorem FinFieldOps.Models.polyRem (a b : List α) (hb : polyVal v b ≠ 0) :
    ∃ r, F.polyEuc.rem a b = some r ∧ polyVal v r = polyVal v a % polyVal v b := by
  rcases h.toDomain.polyTryQuorem a b with ⟨h1, -⟩ | ⟨-, q, r, h2, h3, h4⟩ | ⟨-, -, h3⟩
  · exact absurd h1 hb
  · refine ⟨r, ?_, ?_⟩
    · have hz : F.polyEuc.isZero b = false := (h.toDomain.toRing.toSemi.poly.isZero_false b).2 hb
      have e : F.polyEuc.quorem a b = some (some (q, r)) := by
        change (F.polyTryQuorem a b).bind quoremOrNone = _
        rw [h2]; rfl
      unfold EucOps.rem
      rw [hz, e]
      rfl
    · have : polyVal v a % polyVal v b = polyVal v r % polyVal v b := mod_eq_of_dvd_sub ⟨polyVal v q, by rw [h3]; ring⟩
      rw [this, (mod_eq_self_iff hb).2 h4]
  · exact absurd ⟨polyVal v a / polyVal v b, polyVal v a % polyVal v b,
        by rw [mul_comm]; exact (EuclideanDomain.div_add_mod _ _).symm, EuclideanDomain.mod_lt _ hb⟩ h3

theorem FinFieldOps.Models.berlekampTry (f hh : List α) (n : Nat) (hf : polyVal v f ≠ 0) (hn : (polyVal v f).natDegree = n) :
    (∃ g g', F.berlekampTry f n hh = some (some (.composite g g')) ∧ polyVal v f = polyVal v g * polyVal v g' ∧
      ¬ IsUnit (polyVal v g) ∧ ¬ IsUnit (polyVal v g')) ∨
    (F.berlekampTry f n hh = some none ∧ ∃ g : K[X], IsPolyGcd g (polyVal v hh) (polyVal v f) ∧ (IsUnit g ∨ polyVal v f ∣ g)) := by
  obtain ⟨g, g1, g2, g3⟩ := h.pgcd hh f (Or.inr hf)
  have hd := h.toDomain.toRing.toSemi.polyDegree_some g g2.ne_zero
  have hgf := ((g3 _).1 dvd_rfl).2
  unfold FinFieldOps.berlekampTry
  simp only [g1, hd, Option.bind_eq_bind, Option.bind_some]
  by_cases hc : (polyVal v g).natDegree ≠ 0 ∧ (polyVal v g).natDegree ≠ n
  · left
    rw [if_pos hc]
    obtain ⟨g', k1, k2⟩ := h.pdiv f g g2.ne_zero hgf
    refine ⟨g, g', by rw [k1]; rfl, by rw [k2, mul_comm], ?_, ?_⟩
    · intro hu; exact hc.1 (natDegree_eq_zero_of_isUnit hu)
    · intro hu
      have hg' : polyVal v g' ≠ 0 := fun e => hf (by rw [k2, e, zero_mul])
      apply hc.2
      rw [← hn, k2, natDegree_mul hg' g2.ne_zero, natDegree_eq_zero_of_isUnit hu, zero_add]
  · right
    rw [if_neg hc]
    refine ⟨rfl, _, g3, ?_⟩
    by_cases h0 : (polyVal v g).natDegree = 0
    · left; rw [g2.natDegree_eq_zero.1 h0]; exact isUnit_one
    · right
      have hnn : (polyVal v g).natDegree = n := by
        by_contra hne; exact hc ⟨h0, hne⟩
      obtain ⟨t, ht⟩ := hgf
      have ht0 : t ≠ 0 := fun e => hf (by rw [ht, e, mul_zero])
      have hdt : t.natDegree = 0 := by
        have := hn
        rw [ht, natDegree_mul g2.ne_zero ht0] at this
        omega
      have hut : IsUnit t := by
        rw [natDegree_eq_zero] at hdt
        obtain ⟨c, rfl⟩ := hdt
        exact isUnit_C.2 (IsUnit.mk0 c fun e => ht0 (by rw [e, map_zero]))
      rw [ht]
      exact (hut.mul_right_dvd).2 dvd_rfl

theorem FinFieldOps.Models.berlekampLoop (f : List α) (n : Nat) (hf : polyVal v f ≠ 0) (hn : (polyVal v f).natDegree = n)
    (basis : List (List α)) (cs : List (List α)) :
    (∃ g g', F.berlekampLoop f n basis cs = some (.composite g g') ∧ polyVal v f = polyVal v g * polyVal v g' ∧
      ¬ IsUnit (polyVal v g) ∧ ¬ IsUnit (polyVal v g')) ∨
    (F.berlekampLoop f n basis cs = some .irreducible ∧ ∀ c ∈ cs, ∃ g : K[X],
      IsPolyGcd g (polyVal v (F.berlekampElem basis c)) (polyVal v f) ∧ (IsUnit g ∨ polyVal v f ∣ g)) := by
  induction cs with
  | nil => exact Or.inr ⟨rfl, by simp⟩
  | cons c cs ih =>
    rw [FinFieldOps.berlekampLoop]
    rcases h.berlekampTry f (F.berlekampElem basis c) n hf hn with ⟨g, g', e, h2⟩ | ⟨e, h2⟩
    · rw [e]; exact Or.inl ⟨g, g', rfl, h2⟩
    · rw [e]
      simp only [Option.bind_some]
      rcases ih with ih | ⟨ih1, ih2⟩
      · exact Or.inl ih
      · refine Or.inr ⟨ih1, ?_⟩
        intro c' hc'
        rcases List.mem_cons.1 hc' with rfl | hc'
        · exact h2
        · exact ih2 c' hc'

omit h in
theorem mem_multiCartesianProduct {β : Type} (ls : List (List β)) (x : List β) :
    x ∈ Factored.multiCartesianProduct ls ↔ List.Forall₂ (fun a l => a ∈ l) x ls := by
  induction ls generalizing x with
  | nil => simp [Factored.multiCartesianProduct]
  | cons l ls ih =>
    simp only [Factored.multiCartesianProduct, List.mem_flatMap, List.mem_map]
    constructor
    · rintro ⟨a, ha, t, ht, rfl⟩
      exact List.Forall₂.cons ha ((ih t).1 ht)
    · intro hx
      cases hx with
      | cons ha ht => exact ⟨_, ha, _, (ih _).2 ht, rfl⟩

theorem FinFieldOps.Models.findFactorBerlekamp (f : List α) (hf : polyVal v f ≠ 0) (hs : Squarefree (polyVal v f))
    (hu : ¬ IsUnit (polyVal v f)) :
    ∃ r, F.findFactorBerlekamp f = some r ∧
      match r with
      | .irreducible => Irreducible (polyVal v f)
      | .composite g k => polyVal v f = polyVal v g * polyVal v k ∧ ¬ IsUnit (polyVal v g) ∧ ¬ IsUnit (polyVal v k) := by
  haveI := h.finite
  have hcard := h.card
  obtain ⟨hel1, hel2, hel3⟩ := h.elements
  set n := (polyVal v f).natDegree with hn
  obtain ⟨b, b1, b2⟩ := C59_is_squarefree_partial (K := K) h.toDomain f hf
  have hb : b = true := b2.2 (by rw [Algebra.algebraMap_self, map_id]; exact hs)
  subst hb
  have hd := h.toDomain.toRing.toSemi.polyDegree_some f hf
  rw [← hn] at hd
  have hrows : ∀ i : Nat, ∃ r, F.berlekampRow f F.elements.length i = some r ∧
      polyVal v r = (X ^ (i * F.elements.length) - X ^ i) % polyVal v f := by
    intro i
    obtain ⟨r, r1, r2⟩ := h.polyRem (F.polyAdd (F.polyVarPow (i * F.elements.length)) (F.polyNeg (F.polyVarPow i))) f hf
    refine ⟨r, r1, ?_⟩
    rw [r2, h.toDomain.toRing.toSemi.polyAdd, h.toDomain.toRing.polyNeg, h.toDomain.toRing.toSemi.polyVarPow,
      h.toDomain.toRing.toSemi.polyVarPow, sub_eq_add_neg]
  choose rows rows1 rows2 using hrows
  have e1 : (List.range n).mapM (F.berlekampRow f F.elements.length) = some ((List.range n).map rows) :=
    mapM_eq_map _ fun i _ => rows1 i
  obtain ⟨mat, m1, m2⟩ := Mat.construct_denotes (v := v) (r := n) (c := n)
    (mk := fun i j => (((List.range n).map rows)[i]?).map fun r => F.polyCoeff r j)
    (A := Matrix.of fun (i j : Fin n) => ((X ^ ((i : Nat) * F.elements.length) - X ^ (i : Nat)) % polyVal v f).coeff j) (by
      intro i j
      refine ⟨F.polyCoeff (rows i) j, ?_, ?_⟩
      · rw [List.getElem?_map, List.getElem?_range i.2]; rfl
      · rw [h.toDomain.toRing.toSemi.polyCoeff, rows2]; rfl)
  obtain ⟨lat, k, B, l1, l2, l3⟩ := (h.toDomain.fieldEuc.bezout).rowKernel m2
  obtain ⟨mats, t1, t2, t3⟩ := l2.basisMatrices
  have hrank : lat.rank = k := l2.rank
  have hbas : ∀ j : Fin k, ∃ p, berlekampBasis n (mats[(j : Nat)]'(by rw [t2]; exact j.2)) = some p ∧ polyVal v p = vecPoly (B j 0) := by
    intro j
    obtain ⟨m, hm1, hm2⟩ := t3 j
    have hm : mats[(j : Nat)]'(by rw [t2]; exact j.2) = m := by
      rw [List.getElem?_eq_getElem (by rw [t2]; exact j.2)] at hm1
      exact Option.some.inj hm1
    rw [hm]
    have hget := fun c : Fin n => hm2.get 0 c
    choose g hg1 hg2 using hget
    refine ⟨List.ofFn g, mapM_range_ofFn hg1, ?_⟩
    refine polyVal_ext v F.zero h.toDomain.toRing.toSemi.zero _ _ fun i => ?_
    by_cases hi : i < n
    · rw [List.getD_eq_getElem?_getD, List.getElem?_ofFn]
      simp only [hi, dif_pos, Option.getD_some]
      rw [hg2 ⟨i, hi⟩, ← coeff_vecPoly (B j 0) ⟨i, hi⟩]
    · rw [List.getD_eq_getElem?_getD, List.getElem?_ofFn]
      simp only [hi, dif_neg, Option.getD_none, not_false_eq_true]
      rw [h.toDomain.toRing.toSemi.zero, coeff_vecPoly_ge _ _ (by omega)]
  choose bs bs1 bs2 using hbas
  have e2 : mats.mapM (berlekampBasis n) = some (List.ofFn bs) := by
    have hmats : mats = List.ofFn fun j : Fin k => mats[(j : Nat)]'(by rw [t2]; exact j.2) := by
      apply List.ext_getElem
      · simp [t2]
      · intro i h1 h2; simp
    conv_lhs => rw [hmats]
    rw [List.ofFn_eq_map, List.ofFn_eq_map, List.mapM_map]
    exact mapM_eq_map _ fun j _ => bs1 j
  -- the elements that are tried
  have helem : ∀ c : Fin k → α, polyVal v (F.berlekampElem (List.ofFn bs) (List.ofFn c)) = vecPoly ((∑ j, v (c j) • B j) 0) := by
    intro c
    unfold FinFieldOps.berlekampElem
    have hsum := h.toDomain.toRing.toSemi.poly.sum (((List.ofFn c).zip (List.ofFn bs)).map fun cb => F.polyMul (polyConst cb.1) cb.2)
    refine hsum.trans ?_
    have hz : (List.ofFn c).zip (List.ofFn bs) = List.ofFn fun j => (c j, bs j) := by
      apply List.ext_getElem
      · simp
      · intro i h1 h2; simp
    rw [hz, List.map_map, List.map_ofFn, List.sum_ofFn]
    have hap : (∑ j, v (c j) • B j) 0 = ∑ j, v (c j) • B j 0 := by
      funext i
      rw [Matrix.sum_apply, Finset.sum_apply]
      rfl
    rw [hap, vecPoly_sum]
    refine Finset.sum_congr rfl fun j _ => ?_
    simp only [Function.comp]
    rw [h.toDomain.toRing.toSemi.polyMul, polyVal_const, bs2]
    exact (vecPoly_smul _ _).symm
  have key : F.findFactorBerlekamp f = F.berlekampLoop f n (List.ofFn bs)
      (Factored.multiCartesianProduct (List.replicate k F.elements)) := by
    unfold FinFieldOps.findFactorBerlekamp
    simp only [b1, assertThat, if_true, hd, e1, m1, l1, t1, e2, hrank, Option.bind_eq_bind, Option.bind_some]
  rw [key]
  rcases h.berlekampLoop f n hf rfl (List.ofFn bs) (Factored.multiCartesianProduct (List.replicate k F.elements)) with
    ⟨g, g', r1, r2⟩ | ⟨r1, r2⟩
  · exact ⟨_, r1, r2⟩
  · refine ⟨_, r1, ⟨hu, ?_⟩⟩
    intro a b hab
    by_contra hnu
    rw [not_or] at hnu
    have h0 : a * b ≠ 0 := hab ▸ hf
    have hcop : IsCoprime a b := (squarefree_mul_iff.1 (show Squarefree (a * b) from hab ▸ hs)).1.isCoprime
    have hq : Nat.card K = F.elements.length := by rw [hcard, hel3]
    obtain ⟨z, z1, z2, z3, z4⟩ := berlekamp_separate _ hq hcop h0
    rw [← hab] at z1 z2
    have hz : vecPoly (fun i : Fin n => z.coeff i) = z := vecPoly_of_degree z (by
      rw [degree_eq_natDegree hf] at z1; exact z1)
    have hker := (berlekamp_kernel (polyVal v f) hf rfl _ hq (Matrix.of fun (i j : Fin n) =>
      ((X ^ ((i : Nat) * F.elements.length) - X ^ (i : Nat)) % polyVal v f).coeff j) (fun i j => rfl)
      (Matrix.of fun _ i => z.coeff i)).2 (by
        change _ ∣ vecPoly (fun i : Fin n => z.coeff i) ^ _ - vecPoly (fun i : Fin n => z.coeff i)
        rw [hz]; exact z2)
    rw [← l3, mem_span_family] at hker
    obtain ⟨g, hg⟩ := hker
    have hrep : ∀ x : K, ∃ a ∈ F.elements, v a = x := fun x => by simpa using hel2 x
    choose rep rep1 rep2 using hrep
    have hmem : List.ofFn (fun j => rep (g j)) ∈ Factored.multiCartesianProduct (List.replicate k F.elements) := by
      rw [mem_multiCartesianProduct, List.forall₂_iff_get]
      refine ⟨by simp, fun i h1 h2 => ?_⟩
      simp only [List.get_eq_getElem, List.getElem_ofFn, List.getElem_replicate]
      exact rep1 _
    obtain ⟨d, d1, d2⟩ := r2 _ hmem
    rw [helem] at d1
    simp only [rep2, hg] at d1
    have hz' : vecPoly ((Matrix.of fun (_ : Fin 1) (i : Fin n) => z.coeff i) 0) = z := hz
    rw [hz', hab] at d1
    rcases d2 with d2 | d2
    · have : a ∣ d := (d1 a).2 ⟨z3, dvd_mul_right a b⟩
      exact hnu.1 (isUnit_of_dvd_unit this d2)
    · have h5 : b ∣ z := by
        have : b ∣ d := (dvd_mul_left b a).trans (hab ▸ d2)
        exact ((d1 b).1 this).1
      have : b ∣ z - (z - 1) := dvd_sub h5 z4
      rw [sub_sub_cancel] at this
      exact hnu.2 (isUnit_of_dvd_one this)

/-- `factor_fav_assoc` of a non-zero polynomial: the leading coefficient and the monic associate -/
theorem FinFieldOps.Models.favAssoc_ne (a : List α) (ha : polyVal v a ≠ 0) :
    ∃ l w, F.P.factorFavAssoc a = some (polyConst l, w) ∧ v l = (polyVal v a).leadingCoeff ∧ (polyVal v w).Monic ∧
      polyVal v a = C (v l) * polyVal v w := by
  have hd := h.toDomain
  obtain ⟨l, u, c, w, e1, e2, e3, e4, e5, e6⟩ := hd.fieldFav.polyFactorFavAssoc_ne a ha
  have hl0 : v l ≠ 0 := by rw [e1]; exact leadingCoeff_ne_zero.2 ha
  have hul : u = l := by
    have : F.toDomainOps.fieldFav.factorFavAssoc l = some (l, F.one) := by
      simp only [DomainOps.fieldFav, if_neg (fun e => hl0 ((hd.toSemi.isZero l).1 e))]
    rw [this] at e2
    simp only [Option.some.injEq, Prod.mk.injEq] at e2
    exact e2.1.symm
  subst hul
  refine ⟨u, w, e5, e1, ?_, e6⟩
  have h5 := congrArg leadingCoeff e6
  rw [leadingCoeff_mul, leadingCoeff_C, ← e1] at h5
  exact (mul_left_cancel₀ hl0 (by rw [mul_one]; exact h5)).symm

theorem FinFieldOps.Models.isFav_monic {r : K[X]} (hr : r ≠ 0) (hf : F.P.toFavOps.IsFav (polyVal v) r) : r.Monic := by
  obtain ⟨a, rfl⟩ := h.toDomain.toRing.toSemi.poly.surj r
  obtain ⟨l, w, e1, -, e3, -⟩ := h.favAssoc_ne a hr
  have := hf a _ w rfl e1
  rw [← this]; exact e3

theorem FinFieldOps.Models.monic_isFav {r : K[X]} (hr : r.Monic) : F.P.toFavOps.IsFav (polyVal v) r := by
  intro a u w e1 e2
  obtain ⟨l, w', k1, k2, k3, k4⟩ := h.favAssoc_ne a (by rw [e1]; exact hr.ne_zero)
  rw [k1] at e2
  simp only [Option.some.injEq, Prod.mk.injEq] at e2
  obtain ⟨-, rfl⟩ := e2
  rw [e1, hr.leadingCoeff] at k2
  rw [k2, map_one, one_mul, e1] at k4
  exact k4.symm

theorem FinFieldOps.Models.PFav : F.P.toFavOps.Models (polyVal v) := h.toDomain.polyEuc.bezout.toGcd.toFav

/-- in a valid factorization of a monic polynomial the unit is one -/
theorem FinFieldOps.Models.unit_one {f : Factored (List α)} (hf : f.Valid F.P.toFavOps (polyVal v)) (hm : (f.denote (polyVal v)).Monic) :
    polyVal v f.unit = 1 := by
  have hp : ((f.factors.map fun p => polyVal v p.1 ^ p.2).prod).Monic := by
    rw [← Multiset.prod_coe, ← Multiset.map_coe]
    exact monic_multiset_prod_of_monic _ _ fun q hq => (h.isFav_monic (hf.irreducible q (by simpa using hq)).ne_zero (hf.fav q (by simpa using hq))).pow _
  exact (monic_left hm hp).eq_one_of_isUnit hf.unit

theorem FinFieldOps.Models.pow_valid {f : Factored (List α)} (hf : f.Valid F.P.toFavOps (polyVal v)) (hm : (f.denote (polyVal v)).Monic)
    (k : Nat) (hk : 0 < k) : (f.pow k).Valid F.P.toFavOps (polyVal v) ∧ (f.pow k).denote (polyVal v) = f.denote (polyVal v) ^ k := by
  have hu := h.unit_one hf hm
  refine ⟨⟨hf.unit, ?_, ?_, ?_, ?_⟩, ?_⟩
  · intro p hp
    obtain ⟨q, hq, rfl⟩ := List.mem_map.1 hp
    exact hf.irreducible q hq
  · intro p hp
    obtain ⟨q, hq, rfl⟩ := List.mem_map.1 hp
    exact hf.fav q hq
  · intro p hp
    obtain ⟨q, hq, rfl⟩ := List.mem_map.1 hp
    exact Nat.mul_pos (hf.pos q hq) hk
  · have := hf.distinct
    rw [Factored.pow, List.map_map]
    exact this
  · unfold Factored.denote Factored.pow
    simp only [List.map_map]
    rw [hu, one_mul, one_mul]
    have : ((fun p : List α × Nat => polyVal v p.1 ^ p.2) ∘ fun p => (p.1, p.2 * k)) = fun p : List α × Nat => (polyVal v p.1 ^ p.2) ^ k := by
      funext p; simp [pow_mul]
    rw [this]
    exact List.prod_map_hom f.factors (fun p => polyVal v p.1 ^ p.2) (powMonoidHom k : K[X] →* K[X])

theorem FinFieldOps.Models.berlekampFactor (acc : Factored (List α)) (hacc : acc.Valid F.P.toFavOps (polyVal v)) (q : List α × Nat)
    (hm : (polyVal v q.1).Monic) (hs : Squarefree (polyVal v q.1)) (hq : 0 < q.2) :
    ∃ f, F.berlekampFactor acc q = some f ∧ f.Valid F.P.toFavOps (polyVal v) ∧
      f.denote (polyVal v) = acc.denote (polyVal v) * polyVal v q.1 ^ q.2 := by
  obtain ⟨f, f1, f2, f3⟩ := factorizeByFindFactor_specOn h.PFav Squarefree
    (fun a b hab => ⟨hab.squarefree_of_dvd (dvd_mul_right a b), hab.squarefree_of_dvd (dvd_mul_left b a)⟩) F.findFactorBerlekamp
    (fun e he hse hue => by
      obtain ⟨r, r1, r2⟩ := h.findFactorBerlekamp e he hse hue
      refine ⟨r, r1, ?_⟩
      cases r <;> exact r2) q.1 hm.ne_zero hs
  obtain ⟨g1, g2⟩ := h.pow_valid f2 (f3 ▸ hm) q.2 hq
  obtain ⟨c, c1, c2, c3⟩ := Factored.mul_spec h.PFav acc (f.pow q.2) hacc.fav g1.fav
  refine ⟨c, ?_, c3 hacc g1, by rw [c2, g2, f3]⟩
  unfold FinFieldOps.berlekampFactor
  simp only [f1, c1, Option.bind_eq_bind, Option.bind_some]

theorem FinFieldOps.Models.factorizeBerlekamps (s : SqFac α) (hu : v s.unit ≠ 0) (hs : ∀ q ∈ s.factors, (polyVal v q.1).Monic ∧
    Squarefree (polyVal v q.1) ∧ 0 < q.2) :
    ∃ f, F.factorizeBerlekamps s = some f ∧ f.Valid F.P.toFavOps (polyVal v) ∧ f.denote (polyVal v) = s.denote v := by
  obtain ⟨u, l⟩ := s
  simp only at hu hs
  have main : ∀ (l : List (List α × Nat)) (acc : Factored (List α)), acc.Valid F.P.toFavOps (polyVal v) →
      (∀ q ∈ l, (polyVal v q.1).Monic ∧ Squarefree (polyVal v q.1) ∧ 0 < q.2) →
      ∃ f, l.foldlM F.berlekampFactor acc = some f ∧ f.Valid F.P.toFavOps (polyVal v) ∧
        f.denote (polyVal v) = acc.denote (polyVal v) * (l.map fun p => polyVal v p.1 ^ p.2).prod := by
    intro l
    induction l with
    | nil => exact fun acc ha _ => ⟨acc, rfl, ha, by simp⟩
    | cons q l ih =>
      intro acc ha hl
      obtain ⟨q1, q2, q3⟩ := hl q (by simp)
      obtain ⟨f, f1, f2, f3⟩ := h.berlekampFactor acc ha q q1 q2 q3
      obtain ⟨g, g1, g2, g3⟩ := ih f f2 fun q' hq' => hl q' (by simp [hq'])
      refine ⟨g, by rw [List.foldlM_cons, f1]; exact g1, g2, ?_⟩
      rw [g3, f3, List.map_cons, List.prod_cons, mul_assoc]
  obtain ⟨f, f1, f2, f3⟩ := main l ⟨polyConst u, []⟩ ⟨by
    rw [polyVal_const]; exact isUnit_C.2 (IsUnit.mk0 _ hu), by simp, by simp, by simp, by simp⟩ hs
  refine ⟨f, f1, f2, ?_⟩
  rw [f3]
  simp [Factored.denote, SqFac.denote, polyVal_const]

/-! ## the first step -/

theorem FinFieldOps.Models.monicParts (p : List α) (hp : polyVal v p ≠ 0) :
    ∃ m, F.monicParts p = some m ∧ v m.unit = (polyVal v p).leadingCoeff ∧ (polyVal v m.monic).Monic ∧ m.denote v = polyVal v p := by
  obtain ⟨l, w, e1, e2, e3, e4⟩ := h.favAssoc_ne p hp
  obtain ⟨u, u1, u2⟩ := h.toDomain.toRing.toSemi.polyAsConstant_some (polyConst l) (v l) (polyVal_const v l)
  refine ⟨⟨u, w⟩, ?_, by rw [u2, e2], e3, by rw [MonicFac.denote, u2]; exact e4.symm⟩
  unfold FinFieldOps.monicParts
  simp only [e1, u1, Option.bind_eq_bind, Option.bind_some]

theorem FinFieldOps.Models.factorizeMonic (p : List α) :
    (polyVal v p = 0 ∧ F.factorizeMonic p = some none) ∨
    (polyVal v p ≠ 0 ∧ ∃ m, F.factorizeMonic p = some (some m) ∧ v m.unit = (polyVal v p).leadingCoeff ∧ (polyVal v m.monic).Monic ∧
      m.denote v = polyVal v p) := by
  have hz : F.P.isZero p = true ↔ polyVal v p = 0 := h.toDomain.toRing.toSemi.poly.isZero p
  unfold FinFieldOps.factorizeMonic
  by_cases hp : polyVal v p = 0
  · left; rw [if_pos (hz.2 hp)]; exact ⟨hp, rfl⟩
  · right
    rw [if_neg (fun e => hp (hz.1 e))]
    obtain ⟨m, m1, m2⟩ := h.monicParts p hp
    exact ⟨hp, m, by rw [m1]; rfl, m2⟩

theorem FinFieldOps.Models.monicOf (p : List α) (hp : polyVal v p ≠ 0) :
    ∃ w, F.monicOf p = some w ∧ (polyVal v w).Monic ∧ Associated (polyVal v p) (polyVal v w) := by
  rcases h.factorizeMonic p with ⟨h0, -⟩ | ⟨-, m, m1, m2, m3, m4⟩
  · exact absurd h0 hp
  · refine ⟨m.monic, by unfold FinFieldOps.monicOf; rw [m1]; rfl, m3, ?_⟩
    rw [← m4, MonicFac.denote]
    have hu : IsUnit (C (v m.unit)) := isUnit_C.2 (IsUnit.mk0 _ (by rw [m2]; exact leadingCoeff_ne_zero.2 hp))
    exact associated_unit_mul_left _ _ hu

end Code

end Verif.Rings
