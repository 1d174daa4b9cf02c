import Verif.Proofs.RealAlgIdentify

/-!
# Sums of real algebraic numbers
-/

namespace Verif.RealRoots

open Polynomial Verif.Rings

theorem exists_gap (l : List ℝ) (γ : ℝ) : ∃ δ : ℝ, 0 < δ ∧ ∀ ρ ∈ l, ρ ≠ γ → δ ≤ |ρ - γ| := by
  induction l with
  | nil => exact ⟨1, one_pos, by simp⟩
  | cons x l ih =>
    obtain ⟨δ, d1, d2⟩ := ih
    by_cases hx : x = γ
    · refine ⟨δ, d1, fun ρ hρ hne => ?_⟩
      rcases List.mem_cons.1 hρ with rfl | h
      · exact absurd hx hne
      · exact d2 ρ h hne
    · refine ⟨min δ |x - γ|, lt_min d1 (abs_pos.2 (sub_ne_zero.2 hx)), fun ρ hρ hne => ?_⟩
      rcases List.mem_cons.1 hρ with rfl | h
      · exact min_le_right _ _
      · exact (min_le_left _ _).trans (d2 ρ h hne)

theorem exists_common_width {groups : List SqRoots} (L : List (Nat × Nat)) (h : ∀ kl ∈ L, ∃ w, HasWidth groups kl w) :
    ∃ W, 0 ≤ W ∧ ∀ kl ∈ L, HasWidth groups kl W := by
  induction L with
  | nil => exact ⟨0, le_refl _, by simp⟩
  | cons x L ih =>
    obtain ⟨W, w0, hW⟩ := ih (fun kl hkl => h kl (by simp [hkl]))
    obtain ⟨w, R, iv, r1, r2, r3⟩ := h x (by simp)
    refine ⟨max W w, le_max_of_le_left w0, fun kl hkl => ?_⟩
    rcases List.mem_cons.1 hkl with rfl | hkl
    · exact ⟨R, iv, r1, r2, r3.trans (le_max_right _ _)⟩
    · obtain ⟨R', iv', q1, q2, q3⟩ := hW kl hkl
      exact ⟨R', iv', q1, q2, q3.trans (le_max_left _ _)⟩

theorem natDegree_pos_of_root {p : List Int} (h0 : ipoly p ≠ 0) {x : ℝ} (hx : (rv p).eval x = 0) : 0 < (ipoly p).natDegree := by
  by_contra hd
  have e : rv p = C ((rv p).coeff 0) := eq_C_of_natDegree_eq_zero (by rw [rv_natDegree]; omega)
  rw [e, eval_C] at hx
  rw [hx, C_0] at e
  exact rv_ne_zero.2 h0 e

/-- The squarefree part has the same roots. -/
theorem sqfreePart_root {fac : Fac} (hf : FacOk fac) {P : List Int} (h0 : ipoly P ≠ 0) {γ : ℝ} (hγ : (rv P).eval γ = 0) {s : List Int}
    (hs : ∀ π : ℤ[X], Irreducible π → 0 < π.natDegree → π ∣ ipoly P → π ∣ ipoly s) : (rv s).eval γ = 0 := by
  obtain ⟨pf, -, hv, ha, hfac⟩ := hf.spec h0
  obtain ⟨q, q1, q2⟩ := factor_root hv h0 ha hγ
  have hq := (hfac q q1).1.irreducible
  obtain ⟨k, hk⟩ := rv_dvd (hs (ipoly q.1) hq (natDegree_pos_of_root hq.ne_zero q2) (hfac q q1).2)
  rw [hk, eval_mul, q2, zero_mul]

/-- `identify_real_root` finds the number that the intervals shrink to. -/
theorem identify_spec {simplest : ℚ → ℚ → ℚ} (hs : SimplestOk simplest) {fac : Fac} (hf : FacOk fac) {P : List Int} (h0 : rv P ≠ 0) {γ : ℝ}
    (hγ : (rv P).eval γ = 0) {gen : Nat → Option (ℚ × ℚ)} (hg : Shrinks gen γ) : ∃ x, identify simplest fac P gen = some x ∧ x.Is γ := by
  have hi := rv_ne_zero.1 h0
  obtain ⟨s, s1, s2, s3, s4, s5⟩ := polyPrimSquarefreePart_spec intGcd_models P hi
  have hsγ : (rv s).eval γ = 0 := sqfreePart_root hf hi hγ s5
  obtain ⟨pf, e, hv, ha, hfac⟩ := hf.spec s2.ne_zero
  obtain ⟨q, q1, q2⟩ := factor_root hv s2.ne_zero ha hsγ
  obtain ⟨groups, rss, g1, g2, g3⟩ := mapM_groups pf.factors (fun q hq => (hfac q hq).1)
  obtain ⟨i0, hi0, rfl⟩ := List.mem_iff_getElem.1 q1
  have hlen : groups.length = pf.factors.length := by simpa using congrArg List.length g3
  have hi0g : i0 < groups.length := hlen ▸ hi0
  have hi0r : i0 < rss.length := g2.length_eq ▸ hi0g
  have hpoly : ∀ k (hk : k < groups.length), groups[k].poly = (pf.factors[k]'(hlen ▸ hk)).1 := by
    intro k hk
    have := List.getElem_of_eq g3 (i := k) (by simpa using hk)
    simpa using this
  have hall : ∀ k (hk : k < groups.length), groups[k].All (rss[k]'(g2.length_eq ▸ hk)) := fun k hk => by
    have := (List.forall₂_iff_get.1 g2).2 k hk (g2.length_eq ▸ hk)
    simpa using this
  have hmem : γ ∈ rss[i0] := by
    rw [← (hall i0 hi0g).all, hpoly]; exact q2
  obtain ⟨j0, hj0, hj0e⟩ := List.mem_iff_getElem.1 hmem
  have hother : ∀ k l rs' ρ, rss[k]? = some rs' → rs'[l]? = some ρ → (k, l) ≠ (i0, j0) → ρ ≠ γ := by
    intro k l rs' ρ hk hl hne e
    obtain ⟨hk', rfl⟩ := List.getElem?_eq_some_iff.1 hk
    obtain ⟨hl', rfl⟩ := List.getElem?_eq_some_iff.1 hl
    clear hk hl
    rename' hk' => hk, hl' => hl
    have hkg : k < groups.length := g2.length_eq ▸ hk
    by_cases hki : k = i0
    · subst hki
      have hlj : l ≠ j0 := fun h => hne (by rw [h])
      have hso := List.pairwise_iff_getElem.1 (hall k hkg).isolates.sorted
      rcases lt_or_gt_of_ne hlj with h | h
      · have := hso l j0 hl hj0 h
        rw [hj0e, e] at this
        exact lt_irrefl _ this
      · have := hso j0 l hj0 hl h
        rw [hj0e, e] at this
        exact lt_irrefl _ this
    · have hroot : (rv (pf.factors[k]'(hlen ▸ hkg)).1).eval γ = 0 := by
        rw [← hpoly k hkg, (hall k hkg).all, ← e]
        exact List.getElem_mem hl
      have o1 := (hfac _ (List.getElem_mem (hlen ▸ hkg : k < pf.factors.length))).1
      have o2 := (hfac _ (List.getElem_mem hi0)).1
      have heq := irr_eq o1.irreducible o2.irreducible (natDegree_pos_of_root o1.irreducible.ne_zero hroot)
        (natDegree_pos_of_root o2.irreducible.ne_zero q2) o1.positive o2.positive (by rw [← rv_eq]; exact hroot) (by rw [← rv_eq]; exact q2)
      have hnd := List.pairwise_iff_getElem.1 hv.distinct
      have hk1 : k < (pf.factors.map fun p => ipoly p.1).length := by simpa [← hlen] using hkg
      have hk2 : i0 < (pf.factors.map fun p => ipoly p.1).length := by simpa using hi0
      rcases lt_or_gt_of_ne hki with h | h
      · exact hnd k i0 hk1 hk2 h (by simpa using heq)
      · exact hnd i0 k hk2 hk1 h (by simpa using heq.symm)
  obtain ⟨δ, d1, d2⟩ := exists_gap rss.flatten γ
  obtain ⟨W, w0, hW⟩ := exists_common_width (groups := groups) (allPairs groups) (fun kl hkl => by
    obtain ⟨R, r1, r2⟩ := (mem_allPairs _ _).1 hkl
    exact ⟨_, R, R.ivs[kl.2], r1, List.getElem?_eq_getElem r2, le_refl _⟩)
  have hmemP : (i0, j0) ∈ allPairs groups := (mem_allPairs _ _).2 ⟨groups[i0], List.getElem?_eq_getElem hi0g, by
    rw [(hall i0 hi0g).isolates.isolates.length_eq]; exact hj0⟩
  obtain ⟨N1, hN1⟩ := hg.narrow (δ / 2) (by linarith)
  have w1 : (0 : ℝ) < W + 1 := by
    have : (0 : ℝ) ≤ W := by exact_mod_cast w0
    linarith
  obtain ⟨N2, hN2⟩ := exists_pow_lt_of_lt_one (div_pos (by linarith : (0 : ℝ) < δ / 2) w1) (by norm_num : (2 / 3 : ℝ) < 1)
  have hN : ∀ i ≥ max N1 N2, (∀ a b, gen i = some (a, b) → (b : ℝ) - a < δ / 2) ∧ (((2 / 3) ^ i * W : ℚ) : ℝ) < δ / 2 := by
    intro i hi
    refine ⟨hN1 i (le_of_max_le_left hi), ?_⟩
    have w0' : (0 : ℝ) ≤ W := by exact_mod_cast w0
    have h1 : (2 / 3 : ℝ) ^ i ≤ (2 / 3) ^ N2 := pow_le_pow_of_le_one (by norm_num) (by norm_num) (le_of_max_le_right hi)
    rw [lt_div_iff₀ (by linarith)] at hN2
    push_cast
    have h2 : (0 : ℝ) < (2 / 3) ^ N2 := by positivity
    calc (2 / 3 : ℝ) ^ i * W ≤ (2 / 3) ^ N2 * W := mul_le_mul_of_nonneg_right h1 w0'
      _ ≤ (2 / 3) ^ N2 * (W + 1) := mul_le_mul_of_nonneg_left (by linarith) h2.le
      _ < δ / 2 := hN2
  obtain ⟨groups', l1, l2, l3⟩ := identifyLoop_spec hs hg (List.getElem?_eq_getElem hi0r) (by rw [List.getElem?_eq_getElem hj0, hj0e])
    (W := W) (fun k l rs' ρ hk hl hne => d2 ρ (List.mem_flatten.2 ⟨rs', List.mem_of_getElem? hk, List.mem_of_getElem? hl⟩) (hother k l rs' ρ hk hl hne))
    hN (max N1 N2) 0 groups (allPairs groups) (by omega) ⟨g2, nodup_allPairs groups, hmemP, fun kl hkl => by simpa using hW kl hkl⟩
  have hi0g' : i0 < groups'.length := by rw [l2.length_eq]; exact hi0r
  have hall' : groups'[i0].All rss[i0] := by
    have := (List.forall₂_iff_get.1 l2).2 i0 hi0g' hi0r
    simpa using this
  have hpoly' : groups'[i0].poly = pf.factors[i0].1 := by
    rw [← hpoly i0 hi0g]
    have := List.getElem_of_eq l3 (i := i0) (by simpa using hi0g')
    simpa using this
  have ok := (hfac _ (List.getElem_mem hi0)).1
  obtain ⟨l, t1, t2⟩ := hall'.toRealRoots hf (by rw [hpoly']; exact ok.irreducible) (by rw [hpoly']; exact ok.reduced) (by rw [hpoly']; exact ok.positive)
  have hjl : j0 < l.length := by rw [t2.length_eq]; exact hj0
  have hx : l[j0].Is γ := by
    have := (List.forall₂_iff_get.1 t2).2 j0 hjl hj0
    simp only [List.get_eq_getElem] at this
    rwa [hj0e] at this
  refine ⟨l[j0], ?_, hx⟩
  unfold identify
  simp only [s1, e, g1, l1, Option.bind_eq_bind, Option.bind_some, List.getElem?_eq_getElem hi0g', t1, List.getElem?_eq_getElem hjl, hx.check hf, assertThat, if_true]

/-- The intervals of a sum. -/
theorem sumGen_shrinks {s : ℚ → ℚ → ℚ} (hs : SimplestOk s) {x y : ARoot} {r t : ℝ} (hx : x.Is r) (hy : y.Is t) : Shrinks (sumGen s x y) (r + t) := by
  have key : ∀ i, ∃ x' y' : ARoot, sumGen s x y i = some (x'.ta + y'.ta, x'.tb + y'.tb) ∧ x'.Is r ∧ y'.Is t ∧
      x'.tb - x'.ta ≤ (2 / 3) ^ i * (x.tb - x.ta) ∧ y'.tb - y'.ta ≤ (2 / 3) ^ i * (y.tb - y.ta) := by
    intro i
    obtain ⟨x', x1, x2, -, -, -, -, -, x3⟩ := ARoot.refineN_spec hs hx i
    obtain ⟨y', y1, y2, -, -, -, -, -, y3⟩ := ARoot.refineN_spec hs hy i
    exact ⟨x', y', by rw [sumGen, x1, y1]; rfl, x2, y2, x3, y3⟩
  constructor
  · intro i
    obtain ⟨x', y', e, x1, y1, -⟩ := key i
    refine ⟨_, _, e, ?_, ?_⟩
    · push_cast; exact add_lt_add x1.ta_lt y1.ta_lt
    · push_cast; exact add_lt_add x1.lt_tb y1.lt_tb
  · intro ε hε
    set w : ℚ := (x.tb - x.ta) + (y.tb - y.ta) with hw
    have hw0 : 0 < w := by have := hx.lt; have := hy.lt; rw [hw]; linarith
    obtain ⟨N, hN⟩ := exists_pow_lt_of_lt_one (div_pos hε (by exact_mod_cast hw0 : (0 : ℝ) < w)) (by norm_num : (2 / 3 : ℝ) < 1)
    refine ⟨N, fun i hi a b he => ?_⟩
    obtain ⟨x', y', e, -, -, e1, e2⟩ := key i
    rw [e] at he
    cases he
    have h1 : (2 / 3 : ℝ) ^ i ≤ (2 / 3) ^ N := pow_le_pow_of_le_one (by norm_num) (by norm_num) hi
    have hw' : (0 : ℝ) < w := by exact_mod_cast hw0
    rw [lt_div_iff₀ hw'] at hN
    have h2 : (x'.tb + y'.tb) - (x'.ta + y'.ta) ≤ (2 / 3) ^ i * w := by rw [hw]; linarith
    have h2' : (((x'.tb + y'.tb : ℚ) : ℝ)) - ((x'.ta + y'.ta : ℚ) : ℝ) ≤ (2 / 3) ^ i * w := by
      have := (Rat.cast_le (K := ℝ)).2 h2
      push_cast at this ⊢
      exact this
    calc _ ≤ _ := h2'
      _ ≤ (2 / 3) ^ N * (w : ℝ) := mul_le_mul_of_nonneg_right h1 hw'.le
      _ < ε := hN

/-- Addition. -/
theorem RealAlg.add_spec {s : ℚ → ℚ → ℚ} (hs : SimplestOk s) {fac : Fac} (hf : FacOk fac) {sumPoly : List Int → List Int → Option (List Int)}
    (hsum : OpPolyOk (· + ·) sumPoly) {x y : RealAlg} {r t : ℝ} (hx : x.Is r) (hy : y.Is t) :
    ∃ z, x.add s fac sumPoly y = some z ∧ z.Is (r + t) := by
  cases x with
  | rat a =>
    obtain rfl : r = a := hx
    cases y with
    | rat b =>
      obtain rfl : t = b := hy
      exact ⟨.rat (a + b), rfl, by simp [RealAlg.Is]⟩
    | real y =>
      obtain ⟨z, e, hz⟩ := ARoot.addRat_spec hf hy a
      exact ⟨.real z, by rw [RealAlg.add, e]; rfl, by rw [add_comm]; exact hz⟩
  | real x =>
    cases y with
    | rat b =>
      obtain rfl : t = b := hy
      obtain ⟨z, e, hz⟩ := ARoot.addRat_spec hf hx b
      exact ⟨.real z, by rw [RealAlg.add, e]; rfl, hz⟩
    | real y =>
      have hx' : x.Is r := hx
      have hy' : y.Is t := hy
      obtain ⟨P, p1, p2, p3⟩ := hsum x.poly y.poly (rv_ne_zero.2 hx'.irreducible.ne_zero) (rv_ne_zero.2 hy'.irreducible.ne_zero)
      obtain ⟨z, e, hz⟩ := identify_spec hs hf p2 (p3 r t hx'.root hy'.root) (sumGen_shrinks hs hx' hy')
      exact ⟨z, by rw [RealAlg.add, p1]; exact e, hz⟩

end Verif.RealRoots
