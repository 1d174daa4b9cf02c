import Verif.Proofs.PadicIso
import Verif.Proofs.RealAlgCheck
import Verif.Proofs.BzDm
import Mathlib.Analysis.Normed.Group.Ultra
import Mathlib.RingTheory.Polynomial.GaussLemma

/-!
# Critical values and normalisation
-/

namespace Verif.Padic

open Polynomial Verif.Rings Verif.RealRoots

theorem filterAuxM_some {β : Type} {g : β → Option Bool} {h : β → Bool} : ∀ (l acc : List β), (∀ b ∈ l, g b = some (h b)) →
    List.filterAuxM g l acc = some ((l.filter h).reverse ++ acc)
  | [], acc, _ => rfl
  | b :: l, acc, hb => by
    rw [List.filterAuxM, hb b List.mem_cons_self]
    simp only [Option.bind_eq_bind, Option.bind_some]
    rw [filterAuxM_some l _ (fun c hc => hb c (List.mem_cons_of_mem _ hc))]
    cases e : h b <;> simp [e]

theorem filterM_some {β : Type} {g : β → Option Bool} {h : β → Bool} (l : List β) (hb : ∀ b ∈ l, g b = some (h b)) :
    l.filterM g = some (l.filter h) := by
  rw [List.filterM, filterAuxM_some l [] hb]
  simp

section
variable {p : ℕ} [hp : Fact p.Prime]

/-- a critical pair, in terms of absolute values -/
structure IsCrit (p : ℕ) [Fact p.Prime] (F : ℤ[X]) (bp : BPair) : Prop where
  n_eq : bp.n = F.natDegree
  i_le : bp.i ≤ F.natDegree
  le : ∀ k, ‖((F.coeff k : ℤ) : ℚ_[p])‖ * (p : ℝ) ^ (-(k * bp.bv)) ≤ (p : ℝ) ^ (-bp.cross)
  eq : ‖((F.coeff bp.i : ℤ) : ℚ_[p])‖ * (p : ℝ) ^ (-(bp.i * bp.bv)) = (p : ℝ) ^ (-bp.cross)

theorem norm_int {n : ℤ} (hn : n ≠ 0) : ‖(n : ℚ_[p])‖ = (p : ℝ) ^ (-(padicValInt p n : ℤ)) := by
  rw [← intVal_norm, intVal_eq hp.out hn]; rfl

theorem coeff_eq (f : List Int) (k : ℕ) : intGcd.polyCoeff f k = (polyVal (id : Int → Int) f).coeff k := by
  have := intGcd_models.toSemi.polyCoeff f k
  simpa using this

theorem mem_termVals (f : List Int) (n : ℕ) (bv t : ℤ) :
    t ∈ termVals p f n bv ↔ ∃ k ≤ n, (polyVal (id : Int → Int) f).coeff k ≠ 0 ∧ t = padicValInt p ((polyVal (id : Int → Int) f).coeff k) + k * bv := by
  rw [termVals, List.mem_filterMap]
  constructor
  · rintro ⟨k, hk, h⟩
    rw [List.mem_range] at hk
    rw [coeff_eq] at h
    by_cases h0 : (polyVal (id : Int → Int) f).coeff k = 0
    · rw [h0, intVal_zero] at h; exact absurd h (by simp)
    · rw [intVal_eq hp.out h0] at h
      exact ⟨k, by omega, h0, (Option.some.inj h).symm⟩
  · rintro ⟨k, hk, h0, rfl⟩
    refine ⟨k, List.mem_range.2 (by omega), ?_⟩
    rw [coeff_eq, intVal_eq hp.out h0]

theorem isCritical_spec (f : List Int) (bp : BPair) (hn : bp.n = (polyVal (id : Int → Int) f).natDegree) (hi : bp.i ≤ bp.n)
    (hc : (polyVal (id : Int → Int) f).coeff bp.i ≠ 0) (hv : bp.vfi = padicValInt p ((polyVal (id : Int → Int) f).coeff bp.i)) :
    ∃ b, bp.isCritical p f = some b ∧ (b = true ↔ ∀ k, ‖(((polyVal (id : Int → Int) f).coeff k : ℤ) : ℚ_[p])‖ * (p : ℝ) ^ (-(k * bp.bv)) ≤ (p : ℝ) ^ (-bp.cross)) := by
  set F := polyVal (id : Int → Int) f with hF
  have hmem : bp.cross ∈ termVals p f bp.n bp.bv := (mem_termVals f bp.n bp.bv _).2 ⟨bp.i, hi, hc, by rw [BPair.cross, hv]⟩
  have hne : termVals p f bp.n bp.bv ≠ [] := List.ne_nil_of_mem hmem
  cases hm : (termVals p f bp.n bp.bv).min? with
  | none => exact absurd (List.min?_eq_none_iff.1 hm) hne
  | some m =>
    rw [List.min?_eq_some_iff] at hm
    have key : ∀ k, F.coeff k ≠ 0 → ‖((F.coeff k : ℤ) : ℚ_[p])‖ * (p : ℝ) ^ (-((k : ℤ) * bp.bv)) = (p : ℝ) ^ (-((padicValInt p (F.coeff k) : ℤ) + k * bp.bv)) := by
      intro k hk
      rw [norm_int hk, ← zpow_add₀ p_pos.ne']; congr 1; ring
    have hm' : (termVals p f bp.n bp.bv).min? = some m := List.min?_eq_some_iff.2 hm
    refine ⟨m == bp.cross, by rw [BPair.isCritical, hm']; rfl, ?_⟩
    rw [beq_iff_eq]
    constructor
    · rintro e k
      by_cases h0 : F.coeff k = 0
      · rw [h0]; simpa using (zpow_pos (p_pos (p := p)) _).le
      · rw [key k h0]
        have hkn : k ≤ bp.n := by rw [hn]; exact le_natDegree_of_ne_zero h0
        have := hm.2 _ ((mem_termVals f bp.n bp.bv _).2 ⟨k, hkn, h0, rfl⟩)
        rw [e] at this
        exact zpow_le_zpow_right₀ p_one.le (neg_le_neg this)
    · intro h
      apply le_antisymm (hm.2 _ hmem)
      obtain ⟨k, hk, h0, e⟩ := (mem_termVals f bp.n bp.bv _).1 hm.1
      have := h k
      rw [key k h0, zpow_le_zpow_iff_right₀ p_one] at this
      rw [e]
      exact neg_le_neg_iff.1 this

theorem intDiv_ok {a b q : ℤ} (hb : b ≠ 0) (h : a = q * b) : intDiv a b = .ok q := by
  subst h
  rw [intDiv, intQuorem, if_neg hb]
  simp [Int.mul_fmod_left, Int.mul_fdiv_cancel _ hb]

theorem intDiv_some {a b q : ℤ} (h : intDiv a b = .ok q) : a = q * b := by
  rw [intDiv, intQuorem] at h
  split at h
  · rename_i q' r e
    split at e
    · simp at e
    · simp only [Option.some.injEq, Prod.mk.injEq] at e
      split at h
      · rename_i h0
        simp only [Except.ok.injEq] at h
        have := Int.mul_fdiv_add_fmod a b
        rw [e.1, e.2, h0, h] at this
        linarith
      · simp at h
  · simp at h

theorem pairAt_some {f : List Int} {n i j : ℕ} {bp : BPair} (h : pairAt p f n i j = some bp) :
    bp.n = n ∧ bp.i = i ∧ (polyVal (id : Int → Int) f).coeff i ≠ 0 ∧ bp.vfi = padicValInt p ((polyVal (id : Int → Int) f).coeff i) := by
  rw [pairAt, coeff_eq, coeff_eq] at h
  by_cases h0 : (polyVal (id : Int → Int) f).coeff i = 0
  · rw [h0, intVal_zero] at h; simp at h
  by_cases h1 : (polyVal (id : Int → Int) f).coeff j = 0
  · rw [h1, intVal_zero, intVal_eq hp.out h0] at h; simp at h
  rw [intVal_eq hp.out h0, intVal_eq hp.out h1] at h
  simp only at h
  split at h
  · cases h; exact ⟨rfl, rfl, h0, rfl⟩
  · simp at h

theorem mem_balancable {f : List Int} {n : ℕ} {bp : BPair} :
    bp ∈ ((List.range (n + 1)).flatMap fun i => (List.range' (i + 1) (n - i)).filterMap fun j => pairAt p f n i j) ↔
      ∃ i j, i < j ∧ j ≤ n ∧ pairAt p f n i j = some bp := by
  simp only [List.mem_flatMap, List.mem_range, List.mem_filterMap, List.mem_range'_1]
  constructor
  · rintro ⟨i, hi, j, hj, h⟩; exact ⟨i, j, by omega, by omega, h⟩
  · rintro ⟨i, j, h1, h2, h⟩; exact ⟨i, by omega, j, by omega, h⟩

/-- two terms of largest absolute value at a root -/
theorem two_terms {F : ℚ_[p][X]} {x : ℚ_[p]} (hF : F ≠ 0) (hx : x ≠ 0) (h : F.eval x = 0) :
    ∃ i j, i < j ∧ j ≤ F.natDegree ∧ F.coeff i ≠ 0 ∧ F.coeff j ≠ 0 ∧ ‖F.coeff i‖ * ‖x‖ ^ i = ‖F.coeff j‖ * ‖x‖ ^ j ∧
      ∀ k, ‖F.coeff k‖ * ‖x‖ ^ k ≤ ‖F.coeff i‖ * ‖x‖ ^ i := by
  set t : ℕ → ℝ := fun k => ‖F.coeff k‖ * ‖x‖ ^ k with ht
  have htn : ∀ k, t k = ‖F.coeff k * x ^ k‖ := fun k => by rw [ht, norm_mul, norm_pow]
  obtain ⟨i, hi, hmax⟩ := Finset.exists_max_image (Finset.range (F.natDegree + 1)) t ⟨0, by simp⟩
  have hmax' : ∀ k, t k ≤ t i := by
    intro k
    by_cases hk : k ∈ Finset.range (F.natDegree + 1)
    · exact hmax k hk
    · rw [Finset.mem_range, not_lt] at hk
      have : t k = 0 := by rw [ht]; simp only; rw [coeff_eq_zero_of_natDegree_lt (by omega), norm_zero, zero_mul]
      rw [this]; exact mul_nonneg (norm_nonneg _) (pow_nonneg (norm_nonneg _) _)
  have hxn : 0 < ‖x‖ := norm_pos_iff.2 hx
  have hpos : 0 < t i := by
    have := hmax' F.natDegree
    refine lt_of_lt_of_le ?_ this
    exact mul_pos (norm_pos_iff.2 (by rw [coeff_natDegree]; exact leadingCoeff_ne_zero.2 hF)) (pow_pos hxn _)
  rw [eval_eq_sum_range, ← Finset.add_sum_erase _ _ hi] at h
  have h1 : F.coeff i * x ^ i = -∑ k ∈ (Finset.range (F.natDegree + 1)).erase i, F.coeff k * x ^ k := eq_neg_of_add_eq_zero_left h
  have hne : ((Finset.range (F.natDegree + 1)).erase i).Nonempty := by
    by_contra hem
    rw [Finset.not_nonempty_iff_eq_empty] at hem
    rw [hem, Finset.sum_empty, neg_zero] at h1
    rw [htn i, h1, norm_zero] at hpos
    exact lt_irrefl _ hpos
  obtain ⟨j, hj, hle⟩ := IsUltrametricDist.exists_norm_finset_sum_le_of_nonempty hne (fun k => F.coeff k * x ^ k)
  rw [← norm_neg, ← h1, ← htn, ← htn] at hle
  have heq : t i = t j := le_antisymm hle (hmax' j)
  have hij : j ≠ i := Finset.ne_of_mem_erase hj
  have hjr := Finset.mem_of_mem_erase hj
  rw [Finset.mem_range] at hi hjr
  have hci : F.coeff i ≠ 0 := fun e => by
    have : t i = 0 := by rw [ht]; simp only; rw [e, norm_zero, zero_mul]
    rw [this] at hpos; exact lt_irrefl _ hpos
  have hcj : F.coeff j ≠ 0 := fun e => by
    have : t j = 0 := by rw [ht]; simp only; rw [e, norm_zero, zero_mul]
    rw [heq, this] at hpos; exact lt_irrefl _ hpos
  rcases lt_or_gt_of_ne hij with hlt | hlt
  · exact ⟨j, i, hlt, by omega, hcj, hci, heq.symm, fun k => (hmax' k).trans heq.le⟩
  · exact ⟨i, j, hlt, by omega, hci, hcj, heq, hmax'⟩

theorem pv_coeff (f : List Int) (k : ℕ) : (pv p f).coeff k = (((polyVal (id : Int → Int) f).coeff k : ℤ) : ℚ_[p]) := by
  rw [pv, coeff_map, Int.coe_castRingHom]

theorem pv_natDegree (f : List Int) : (pv p f).natDegree = (polyVal (id : Int → Int) f).natDegree :=
  natDegree_map_eq_of_injective (RingHom.injective_int _) _

theorem pv_ne_zero {f : List Int} (h : polyVal (id : Int → Int) f ≠ 0) : pv p f ≠ 0 :=
  (Polynomial.map_ne_zero_iff (RingHom.injective_int _)).2 h

theorem criticalPairs_spec (f : List Int) (h0 : polyVal (id : Int → Int) f ≠ 0) :
    ∃ l, criticalPairs p f = some l ∧ (∀ bp ∈ l, IsCrit p (polyVal (id : Int → Int) f) bp ∧ bp.isCritical p f = some true) ∧
      ∀ x : ℚ_[p], x ≠ 0 → (pv p f).eval x = 0 → ∃ bp ∈ l, bp.bv = x.valuation := by
  set F := polyVal (id : Int → Int) f with hF
  have hz : intGcd.toSemiRingOps.poly.isZero f = false := by
    rw [← Bool.not_eq_true, intGcd_models.toSemi.poly.isZero]; exact h0
  set bps := (List.range (F.natDegree + 1)).flatMap fun i => (List.range' (i + 1) (F.natDegree - i)).filterMap fun j => pairAt p f F.natDegree i j
    with hbps
  have hb : balancablePairs p f = some bps := by
    rw [balancablePairs, hz, intGcd_models.toSemi.polyDegree_some f h0]; rfl
  have hfacts : ∀ bp ∈ bps, bp.n = F.natDegree ∧ bp.i ≤ bp.n ∧ F.coeff bp.i ≠ 0 ∧ bp.vfi = padicValInt p (F.coeff bp.i) := by
    intro bp hbp
    obtain ⟨i, j, h1, h2, h3⟩ := mem_balancable.1 hbp
    obtain ⟨e1, e2, e3, e4⟩ := pairAt_some h3
    rw [e2]
    exact ⟨e1, by omega, e3, e4⟩
  set h : BPair → Bool := fun bp => (bp.isCritical p f).getD false with hh
  have hsome : ∀ bp ∈ bps, bp.isCritical p f = some (h bp) := by
    intro bp hbp
    obtain ⟨a1, a2, a3, a4⟩ := hfacts bp hbp
    obtain ⟨b, hb1, -⟩ := isCritical_spec f bp a1 a2 a3 a4
    rw [hh]; simp only; rw [hb1]; rfl
  refine ⟨bps.filter h, ?_, ?_, ?_⟩
  · rw [criticalPairs, hb]
    exact filterM_some bps hsome
  · intro bp hbp
    rw [List.mem_filter] at hbp
    obtain ⟨a1, a2, a3, a4⟩ := hfacts bp hbp.1
    obtain ⟨b, hb1, hb2⟩ := isCritical_spec f bp a1 a2 a3 a4
    have e := hsome bp hbp.1
    have hbt : b = true := by rw [hb1, hbp.2] at e; exact Option.some.inj e
    refine ⟨⟨a1, a1 ▸ a2, hb2.1 hbt, ?_⟩, by rw [hb1, hbt]⟩
    rw [norm_int a3, ← zpow_add₀ p_pos.ne', BPair.cross, a4]; congr 1; ring
  · intro x hx hroot
    obtain ⟨i, j, hij, hjn, hi, hj, heq, hmax⟩ := two_terms (pv_ne_zero h0) hx hroot
    rw [pv_natDegree] at hjn
    rw [pv_coeff] at hi hj
    rw [pv_coeff, pv_coeff] at heq
    have hi' : F.coeff i ≠ 0 := fun e => hi (by rw [e]; simp)
    have hj' : F.coeff j ≠ 0 := fun e => hj (by rw [e]; simp)
    set κ := x.valuation with hκ
    have hxn : ‖x‖ = (p : ℝ) ^ (-κ) := norm_zpow hx
    have hpow : ∀ k : ℕ, ‖x‖ ^ k = (p : ℝ) ^ (-((k : ℤ) * κ)) := by
      intro k; rw [hxn, ← zpow_natCast, ← zpow_mul]; congr 1; ring
    rw [hpow, hpow, norm_int hi', norm_int hj', ← zpow_add₀ p_pos.ne', ← zpow_add₀ p_pos.ne'] at heq
    have he := zpow_right_injective₀ p_pos p_one.ne' heq
    have hdiv : intDiv ((padicValInt p (F.coeff i) : ℤ) - padicValInt p (F.coeff j)) ((j - i : ℕ) : ℤ) = .ok κ := by
      apply intDiv_ok (by omega)
      rw [Nat.cast_sub hij.le]
      linarith
    set bp : BPair := ⟨F.natDegree, i, j, padicValInt p (F.coeff i), padicValInt p (F.coeff j), κ⟩ with hbp
    have hp1 : pairAt p f F.natDegree i j = some bp := by
      rw [pairAt, coeff_eq, coeff_eq, ← hF, intVal_eq hp.out hi', intVal_eq hp.out hj']
      simp only [hdiv]
      rfl
    have hmem : bp ∈ bps := mem_balancable.2 ⟨i, j, hij, hjn, hp1⟩
    refine ⟨bp, List.mem_filter.2 ⟨hmem, ?_⟩, rfl⟩
    obtain ⟨a1, a2, a3, a4⟩ := hfacts bp hmem
    obtain ⟨b, hb1, hb2⟩ := isCritical_spec f bp a1 a2 a3 a4
    have : b = true := hb2.2 fun k => by
      have h1 := hmax k
      rw [pv_coeff, pv_coeff, hpow, hpow] at h1
      refine h1.trans (le_of_eq ?_)
      rw [norm_int hi', ← zpow_add₀ p_pos.ne', BPair.cross]; congr 1; simp only [hbp]; ring
    rw [hh]; simp only; rw [hb1, this]; rfl

/-- the relation between a polynomial and its normalisation -/
def NormOf (F G : ℤ[X]) (κ m : ℤ) : Prop := ∀ k, (G.coeff k : ℚ) = (F.coeff k : ℚ) * (p : ℚ) ^ (κ * k - m)

theorem normCoeff_spec (f : List Int) (bp : BPair) (hc : IsCrit p (polyVal (id : Int → Int) f) bp) (k : ℕ) :
    ∃ c : ℤ, normCoeff p f bp k = some c ∧ (c : ℚ) = ((polyVal (id : Int → Int) f).coeff k : ℚ) * (p : ℚ) ^ (bp.bv * k - bp.cross) := by
  set F := polyVal (id : Int → Int) f with hF
  have hp0 : (p : ℚ) ≠ 0 := by exact_mod_cast hp.out.ne_zero
  rw [normCoeff, coeff_eq, ← hF]
  set e := bp.bv * k - bp.cross with he
  split
  · rename_i h
    refine ⟨_, rfl, ?_⟩
    push_cast
    rw [← zpow_natCast, Int.natCast_natAbs, abs_of_nonneg h]
  · rename_i h
    rw [not_le] at h
    have hd : ((p : ℤ) ^ (-e).natAbs) ∣ F.coeff k := by
      rw [← PadicInt.norm_int_le_pow_iff_dvd, ← int_norm_cast]
      have h1 := hc.le k
      rw [← le_div_iff₀ (zpow_pos p_pos _), ← zpow_sub₀ p_pos.ne'] at h1
      refine h1.trans (le_of_eq ?_)
      congr 1
      have : (((-e).natAbs : ℕ) : ℤ) = -e := by omega
      rw [this, he]; ring
    obtain ⟨c, hc'⟩ := hd
    have hpn : ((p : ℤ) ^ (-e).natAbs) ≠ 0 := pow_ne_zero _ (by exact_mod_cast hp.out.ne_zero)
    refine ⟨c, by rw [intDiv_ok hpn (by rw [hc', mul_comm])]; rfl, ?_⟩
    rw [hc']
    push_cast
    have : (p : ℚ) ^ (-e).natAbs * (p : ℚ) ^ e = 1 := by
      rw [← zpow_natCast, ← zpow_add₀ hp0]
      have : (((-e).natAbs : ℕ) : ℤ) + e = 0 := by omega
      rw [this, zpow_zero]
    linear_combination -(c : ℚ) * this

theorem normalization_spec {fac : Fac} (hfac : FacOk fac) (f : List Int) (hirr : Irreducible (polyVal (id : Int → Int) f)) (bp : BPair)
    (hc : IsCrit p (polyVal (id : Int → Int) f) bp) (hcr : bp.isCritical p f = some true) :
    ∃ g, bp.normalization fac p f = some g ∧ NormOf (p := p) (polyVal (id : Int → Int) f) (polyVal (id : Int → Int) g) bp.bv bp.cross := by
  obtain ⟨l, h1, hlen, h2⟩ := mapM_some_all (normCoeff p f bp) (List.range (bp.n + 1)) (fun k _ => by
    obtain ⟨c, hc, _⟩ := normCoeff_spec f bp hc k; exact ⟨c, hc⟩)
  rw [List.length_range] at hlen
  refine ⟨l, ?_, fun k => ?_⟩
  · rw [BPair.normalization, isIrreducible_ok hfac hirr, hcr]
    simp only [assertThat, if_true, Option.bind_eq_bind, Option.bind_some]
    exact h1
  · by_cases hk : k < bp.n + 1
    · obtain ⟨y, hy1, hy2⟩ := h2 k k (by rw [List.getElem?_range hk])
      obtain ⟨c, hc1, hc2⟩ := normCoeff_spec f bp hc k
      rw [hy2] at hc1
      cases hc1
      have hcl : (polyVal (id : Int → Int) l).coeff k = y := by
        have hkl : k < l.length := by omega
        rw [coeff_polyVal_lt (id : Int → Int) l k hkl]
        rw [List.getElem?_eq_getElem hkl] at hy1
        exact Option.some.inj hy1
      rw [hcl]; exact hc2
    · rw [coeff_polyVal_ge (id : Int → Int) l k (by omega), coeff_eq_zero_of_natDegree_lt (by have := hc.n_eq; omega)]
      simp

end

end Verif.Padic
