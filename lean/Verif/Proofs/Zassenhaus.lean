import Verif.Proofs.HenselInto
import Verif.Proofs.IntBounds
import Mathlib.RingTheory.Prime

/-!
# Zassenhaus: factors over the integers and sets of modular factors
-/

namespace Verif.Rings

open Polynomial Finset

/-- the map to polynomials modulo `p` -/
noncomputable abbrev redMod (p : ℤ) (A : ℤ[X]) : (ℤ ⧸ Ideal.span {p})[X] := A.map (Ideal.Quotient.mk (Ideal.span {p}))

/-- A factorization of `F` modulo `p ^ t` into monic polynomials that are prime modulo `p`. -/
structure ModFact (p : ℤ) (t : ℕ) (F : ℤ[X]) (A : Finset ℕ) (g : ℕ → ℤ[X]) : Prop where
  hp : Prime p
  ht : 0 < t
  monic : ∀ i ∈ A, (g i).Monic
  prime : ∀ i ∈ A, Prime (redMod p (g i))
  co : ∀ i ∈ A, ∀ j ∈ A, i ≠ j → CoprimeMod p (g i) (g j)
  lc : ¬ p ∣ F.leadingCoeff
  cong : CongMod (p ^ t) F (C F.leadingCoeff * ∏ i ∈ A, g i)

/-- `G` is congruent to the product of the modular factors in `S` -/
def Is (p : ℤ) (t : ℕ) (g : ℕ → ℤ[X]) (G : ℤ[X]) (S : Finset ℕ) : Prop :=
  CongMod (p ^ t) G (C G.leadingCoeff * ∏ i ∈ S, g i)

theorem inv_mod_pow {p : ℤ} (hp : Prime p) (t : ℕ) {a : ℤ} (ha : ¬ p ∣ a) : ∃ u, p ^ t ∣ u * a - 1 := by
  have h1 : IsCoprime a (p ^ t) := IsCoprime.pow_right ((hp.coprime_iff_not_dvd.2 ha).symm)
  obtain ⟨u, w, e⟩ := h1
  exact ⟨u, ⟨-w, by linarith⟩⟩

theorem CongMod.C_mul_cancel {p : ℤ} (hp : Prime p) {t : ℕ} {a : ℤ} (ha : ¬ p ∣ a) {A B : ℤ[X]}
    (h : CongMod (p ^ t) (C a * A) (C a * B)) : CongMod (p ^ t) A B := by
  intro k
  have := h k
  rw [coeff_C_mul, coeff_C_mul, ← mul_sub] at this
  exact (IsCoprime.pow_left ((hp.coprime_iff_not_dvd.2 ha))).dvd_of_dvd_mul_left this

theorem CongMod.const {m a b : ℤ} (h : m ∣ a - b) : CongMod m (C a) (C b) := by
  intro k
  rw [coeff_C, coeff_C]; split_ifs <;> simp [h]

theorem CongMod.monic_cancel {m : ℤ} (hm : ¬ IsUnit m) {P A B : ℤ[X]} (hP : P.Monic) (h : CongMod m (P * A) (P * B)) : CongMod m A B := by
  have hm' : Nontrivial (ℤ ⧸ Ideal.span {m}) :=
    Ideal.Quotient.nontrivial_iff.2 (by rwa [Ne, Ideal.span_singleton_eq_top])
  rw [← map_mk_eq_iff] at h ⊢
  rw [Polynomial.map_mul, Polynomial.map_mul] at h
  exact (hP.map _).isRegular.left h

theorem lc_of_mul {p : ℤ} {F G H : ℤ[X]} (e : F = G * H) (h : ¬ p ∣ F.leadingCoeff) : ¬ p ∣ G.leadingCoeff ∧ ¬ p ∣ H.leadingCoeff := by
  rw [e, leadingCoeff_mul] at h
  exact ⟨fun hd => h (hd.mul_right _), fun hd => h (hd.mul_left _)⟩

namespace ModFact

variable {p : ℤ} {t : ℕ} {F : ℤ[X]} {A : Finset ℕ} {g : ℕ → ℤ[X]}

theorem not_unit (h : ModFact p t F A g) : ¬ IsUnit (p ^ t) := fun hu => h.hp.not_unit ((isUnit_pow_iff h.ht.ne').1 hu)

theorem prod_monic (h : ModFact p t F A g) {S : Finset ℕ} (hS : S ⊆ A) : (∏ i ∈ S, g i).Monic :=
  monic_prod_of_monic _ _ fun i hi => h.monic i (hS hi)

theorem natDegree_prod (h : ModFact p t F A g) {S : Finset ℕ} (hS : S ⊆ A) : (∏ i ∈ S, g i).natDegree = ∑ i ∈ S, (g i).natDegree :=
  natDegree_prod_of_monic _ _ fun i hi => h.monic i (hS hi)

theorem pos (h : ModFact p t F A g) {i : ℕ} (hi : i ∈ A) : 0 < (g i).natDegree := by
  rw [Nat.pos_iff_ne_zero]
  intro e
  have h1 := (h.monic i hi).natDegree_eq_zero.1 e
  have := h.prime i hi
  rw [h1, redMod, Polynomial.map_one] at this
  exact this.not_unit isUnit_one

theorem natDegree_of_is (h : ModFact p t F A g) {S : Finset ℕ} (hS : S ⊆ A) {G : ℤ[X]} (hG : ¬ p ∣ G.leadingCoeff) (hi : Is p t g G S) :
    G.natDegree = ∑ i ∈ S, (g i).natDegree := by
  rw [← h.natDegree_prod hS]
  exact natDegree_of_cong (h.prod_monic hS) _ rfl (fun hd => hG ((dvd_pow_self _ h.ht.ne').trans hd)) hi

theorem coprime_prod (h : ModFact p t F A g) {S U : Finset ℕ} (hS : S ⊆ A) (hU : U ⊆ A) (hd : Disjoint S U) :
    CoprimeMod p (∏ i ∈ S, g i) (∏ i ∈ U, g i) := by
  rw [CoprimeMod.iff, Polynomial.map_prod, Polynomial.map_prod]
  refine IsCoprime.prod_left fun i hi => IsCoprime.prod_right fun j hj => ?_
  exact CoprimeMod.iff.1 (h.co i (hS hi) j (hU hj) fun e => Finset.disjoint_left.1 hd hi (e ▸ hj))

theorem empty (h : ModFact p t F A g) {G : ℤ[X]} (hG : ¬ p ∣ G.leadingCoeff) {S : Finset ℕ} (hS : S ⊆ A) (hi : Is p t g G S)
    (h0 : G.natDegree = 0) : S = ∅ := by
  rw [h.natDegree_of_is hS hG hi] at h0
  by_contra hne
  obtain ⟨i, hi⟩ := Finset.nonempty_iff_ne_empty.2 hne
  have := (Finset.sum_eq_zero_iff.1 h0) i hi
  have := h.pos (hS hi)
  omega

/-- the cofactor belongs to the complement -/
theorem cancel (h : ModFact p t F A g) {G H : ℤ[X]} (e : F = G * H) {S : Finset ℕ} (hS : S ⊆ A) (hi : Is p t g G S) :
    Is p t g H (A \ S) := by
  obtain ⟨hG, hH⟩ := lc_of_mul e h.lc
  have h1 : CongMod (p ^ t) (C G.leadingCoeff * ((∏ i ∈ S, g i) * H))
      (C G.leadingCoeff * ((∏ i ∈ S, g i) * (C H.leadingCoeff * ∏ i ∈ A \ S, g i))) := by
    have h2 : CongMod (p ^ t) (C G.leadingCoeff * ((∏ i ∈ S, g i) * H)) F := by
      rw [e, ← mul_assoc]
      exact CongMod.mul (CongMod.symm hi) (.refl _ _)
    refine h2.trans (h.cong.trans ?_)
    have h3 : C F.leadingCoeff * ∏ i ∈ A, g i =
        C G.leadingCoeff * ((∏ i ∈ S, g i) * (C H.leadingCoeff * ∏ i ∈ A \ S, g i)) := by
      rw [← Finset.prod_sdiff hS, e, leadingCoeff_mul, C_mul]; ring
    rw [h3]
    exact .refl _ _
  exact (CongMod.C_mul_cancel h.hp hG h1).monic_cancel h.not_unit (h.prod_monic hS)

/-- a factorization modulo `p` of a factor lifts -/
theorem lift (h : ModFact p t F A g) {G H : ℤ[X]} (e : F = G * H) {S : Finset ℕ} (hS : S ⊆ A)
    (hG1 : CongMod p G (C G.leadingCoeff * ∏ i ∈ S, g i)) (hH1 : CongMod p H (C H.leadingCoeff * ∏ i ∈ A \ S, g i)) :
    Is p t g G S := by
  obtain ⟨hG, hH⟩ := lc_of_mul e h.lc
  obtain ⟨u, hu⟩ := inv_mod_pow h.hp t hG
  have hGd : G.natDegree = (∏ i ∈ S, g i).natDegree := natDegree_of_cong (h.prod_monic hS) _ rfl hG hG1
  set A' : ℤ[X] := C u * G + C (1 - u * G.leadingCoeff) * X ^ G.natDegree with hA'
  have hcoeff : A'.coeff G.natDegree = 1 := by
    rw [hA', coeff_add, coeff_C_mul, coeff_C_mul, coeff_X_pow_self, coeff_natDegree]; ring
  have hdeg : A'.natDegree ≤ G.natDegree := by
    refine (natDegree_add_le _ _).trans (max_le (natDegree_C_mul_le _ _) ((natDegree_C_mul_X_pow_le _ _)))
  have hmon : A'.Monic := monic_of_natDegree_le_of_coeff_eq_one _ hdeg hcoeff
  have hnd : A'.natDegree = G.natDegree := natDegree_eq_of_le_of_coeff_ne_zero hdeg (by rw [hcoeff]; exact one_ne_zero)
  have hA'c : CongMod (p ^ t) A' (C u * G) := by
    rw [congMod_iff, hA', add_sub_cancel_left]
    exact Dvd.dvd.mul_right (_root_.map_dvd C (by rw [← neg_sub]; exact (dvd_neg).2 hu)) _
  have hlG : CongMod (p ^ t) (C G.leadingCoeff * (C u * G)) G := by
    rw [← mul_assoc, ← C_mul]
    have : CongMod (p ^ t) (C (G.leadingCoeff * u)) (C 1) := CongMod.const (by rw [mul_comm]; exact hu)
    simpa using this.mul (.refl _ G)
  have hprod : CongMod (p ^ t) ((∏ i ∈ S, g i) * (C F.leadingCoeff * ∏ i ∈ A \ S, g i)) (A' * (C G.leadingCoeff * H)) := by
    have h1 : CongMod (p ^ t) (A' * (C G.leadingCoeff * H)) F := by
      have := (((CongMod.refl (p ^ t) (C G.leadingCoeff)).mul hA'c).trans hlG).mul (.refl _ H)
      rw [← e] at this
      have e2 : A' * (C G.leadingCoeff * H) = C G.leadingCoeff * A' * H := by ring
      rw [e2]; exact this
    have e3 : (∏ i ∈ S, g i) * (C F.leadingCoeff * ∏ i ∈ A \ S, g i) = C F.leadingCoeff * ∏ i ∈ A, g i := by
      rw [← Finset.prod_sdiff hS]; ring
    rw [e3]
    exact h.cong.symm.trans h1.symm
  have hco : CoprimeMod p (∏ i ∈ S, g i) (C G.leadingCoeff * H) := by
    have h1 := h.coprime_prod hS (Finset.sdiff_subset (s := A) (t := S)) Finset.disjoint_sdiff
    have h2 : CongMod p (C G.leadingCoeff * H) (C F.leadingCoeff * ∏ i ∈ A \ S, g i) := by
      have := (CongMod.refl p (C G.leadingCoeff)).mul hH1
      rwa [← mul_assoc, ← C_mul, ← leadingCoeff_mul, ← e] at this
    obtain ⟨w, hw⟩ := inv_mod_pow h.hp 1 h.lc
    obtain ⟨U, W, hUW⟩ := h1
    refine CoprimeMod.congr (m := p) ⟨U, W * C w, ?_⟩ (.refl _ _) h2.symm
    have h3 : CongMod p (C (w * F.leadingCoeff)) (C 1) := CongMod.const (by simpa using hw)
    have h4 := (CongMod.refl p (U * ∏ i ∈ S, g i)).add ((CongMod.refl p (W * ∏ i ∈ A \ S, g i)).mul h3)
    rw [C_1, mul_one] at h4
    have e4 : U * ∏ i ∈ S, g i + W * C w * (C F.leadingCoeff * ∏ i ∈ A \ S, g i) =
      U * ∏ i ∈ S, g i + (W * ∏ i ∈ A \ S, g i) * C (w * F.leadingCoeff) := by rw [C_mul]; ring
    rw [e4]
    exact h4.trans hUW
  have hfin := hensel_unique (h.prod_monic hS) hmon (hnd.trans hGd) hprod hco
  exact (((CongMod.refl _ (C G.leadingCoeff)).mul (hfin.trans hA'c)).trans hlG).symm

/-- every factorization over the integers comes from a partition of the modular factors -/
theorem split (h : ModFact p t F A g) {G H : ℤ[X]} (e : F = G * H) : ∃ S ⊆ A, Is p t g G S := by
  obtain ⟨hG, hH⟩ := lc_of_mul e h.lc
  haveI : (Ideal.span {p}).IsPrime := (Ideal.span_singleton_prime h.hp.ne_zero).2 h.hp
  have hlcF : Ideal.Quotient.mk (Ideal.span {p}) F.leadingCoeff ≠ 0 := by
    rw [Ne, Ideal.Quotient.eq_zero_iff_mem, Ideal.mem_span_singleton]; exact h.lc
  have h1 : redMod p G * redMod p H = redMod p (C F.leadingCoeff) * ∏ i ∈ A, redMod p (g i) := by
    have := (map_mk_eq_iff _ _ _).2 (h.cong.mono (dvd_pow_self p h.ht.ne'))
    rw [Polynomial.map_mul, Polynomial.map_prod] at this
    rw [redMod, redMod, ← Polynomial.map_mul, ← e]; exact this
  obtain ⟨S, U, b, c, hSU, hd, hbc, hx, hy⟩ := mul_eq_mul_prime_prod (fun i hi => h.prime i hi) h1
  have hS : S ⊆ A := hSU ▸ Finset.subset_union_left
  have hU : U = A \ S := by
    rw [← hSU]
    exact (Finset.union_sdiff_cancel_left hd).symm
  have hbc0 : (b * c).natDegree = 0 := by rw [← hbc, redMod, map_C, natDegree_C]
  have hne : b * c ≠ 0 := by rw [← hbc, redMod, map_C]; exact C_ne_zero.2 hlcF
  have hb0 : b ≠ 0 := left_ne_zero_of_mul hne
  have hc0 : c ≠ 0 := right_ne_zero_of_mul hne
  rw [natDegree_mul hb0 hc0] at hbc0
  have key : ∀ (K : ℤ[X]) (b : (ℤ ⧸ Ideal.span {p})[X]) (S : Finset ℕ), S ⊆ A → ¬ p ∣ K.leadingCoeff → b.natDegree = 0 →
      redMod p K = b * ∏ i ∈ S, redMod p (g i) → CongMod p K (C K.leadingCoeff * ∏ i ∈ S, g i) := by
    intro K b S hS hK hb hKb
    have hKl : (redMod p K).leadingCoeff = Ideal.Quotient.mk (Ideal.span {p}) K.leadingCoeff :=
      leadingCoeff_map_of_leadingCoeff_ne_zero _ (by rwa [Ne, Ideal.Quotient.eq_zero_iff_mem, Ideal.mem_span_singleton])
    have hm : (∏ i ∈ S, redMod p (g i)).Monic := monic_prod_of_monic _ _ fun i hi => (h.monic i (hS hi)).map _
    rw [hKb, leadingCoeff_mul_monic hm] at hKl
    rw [← map_mk_eq_iff, Polynomial.map_mul, map_C, ← hKl, Polynomial.map_prod]
    rw [eq_C_of_natDegree_eq_zero hb] at hKb ⊢
    simpa using hKb
  have hG1 := key G b S hS hG (by omega) hx
  have hH1 := key H c (A \ S) Finset.sdiff_subset hH (by omega) (by rw [← hU]; exact hy)
  exact ⟨S, hS, h.lift e hS hG1 hH1⟩

/-- the factor of a factor -/
theorem sub (h : ModFact p t F A g) {G : ℤ[X]} (hd : G ∣ F) {S : Finset ℕ} (hS : S ⊆ A) (hi : Is p t g G S) : ModFact p t G S g := by
  obtain ⟨H, e⟩ := hd
  exact ⟨h.hp, h.ht, fun i hi => h.monic i (hS hi), fun i hi => h.prime i (hS hi),
    fun i hi j hj => h.co i (hS hi) j (hS hj), (lc_of_mul e h.lc).1, hi⟩

end ModFact

end Verif.Rings
