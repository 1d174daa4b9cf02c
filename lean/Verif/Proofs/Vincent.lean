import Verif.Proofs.Descartes
import Mathlib.RingTheory.UniqueFactorizationDomain.Basic
import Mathlib.RingTheory.Polynomial.UniqueFactorization

/-! # On short intervals there is at most one sign change -/

namespace Verif.RealRoots

open Polynomial

/-- The coefficients as a sequence on the integers. -/
noncomputable def cz (f : ℝ[X]) (n : ℤ) : ℝ := if 0 ≤ n then f.coeff n.toNat else 0

theorem cz_nat (f : ℝ[X]) (n : Nat) : cz f n = f.coeff n := by simp [cz]

/-- Nonnegative coefficients that are logarithmically concave. -/
structure NLC (f : ℝ[X]) : Prop where
  nonneg : ∀ n, 0 ≤ f.coeff n
  lc : ∀ i j : ℤ, i ≤ j → cz f (i - 1) * cz f (j + 1) ≤ cz f i * cz f j

theorem NLC.cz_nonneg {f : ℝ[X]} (h : NLC f) (n : ℤ) : 0 ≤ cz f n := by
  unfold cz
  split
  · exact h.nonneg _
  · exact le_rfl

theorem NLC.spread {f : ℝ[X]} (h : NLC f) (d : Nat) (i j : ℤ) (hij : i ≤ j) : cz f (i - d) * cz f (j + d) ≤ cz f i * cz f j := by
  induction d with
  | zero => simp
  | succ d ih =>
    have := h.lc (i - d) (j + d) (by omega)
    refine le_trans ?_ ih
    convert this using 2 <;> congr 1 <;> push_cast <;> ring

theorem NLC.spread' {f : ℝ[X]} (h : NLC f) {m n i j : ℤ} (hmi : m ≤ i) (hmj : m ≤ j) (hs : m + n = i + j) : cz f m * cz f n ≤ cz f i * cz f j := by
  rcases le_total i j with hij | hij
  · have := h.spread (i - m).toNat i j hij
    rwa [show i - ((i - m).toNat : ℤ) = m by omega, show j + ((i - m).toNat : ℤ) = n by omega] at this
  · have := h.spread (j - m).toNat j i hij
    rwa [show j - ((j - m).toNat : ℤ) = m by omega, show i + ((j - m).toNat : ℤ) = n by omega, mul_comm (cz f j)] at this

theorem coeff_quad_mul (f : ℝ[X]) (α β γ : ℝ) (n : Nat) :
    (f * (C α * X ^ 2 + C β * X + C γ)).coeff n = α * cz f ((n : ℤ) - 2) + β * cz f ((n : ℤ) - 1) + γ * cz f n := by
  have e : f * (C α * X ^ 2 + C β * X + C γ) = C α * (f * X ^ 2) + C β * (f * X ^ 1) + C γ * f := by ring
  rw [e, coeff_add, coeff_add, coeff_C_mul, coeff_C_mul, coeff_C_mul, coeff_mul_X_pow', coeff_mul_X_pow', cz_nat]
  congr 2
  · congr 1
    unfold cz
    by_cases h : 2 ≤ n
    · rw [if_pos h, if_pos (by omega)]; congr 1; omega
    · rw [if_neg h, if_neg (by omega)]
  · congr 1
    unfold cz
    by_cases h : 1 ≤ n
    · rw [if_pos h, if_pos (by omega)]; congr 1; omega
    · rw [if_neg h, if_neg (by omega)]

theorem cz_quad_mul (f : ℝ[X]) (α β γ : ℝ) (n : ℤ) :
    cz (f * (C α * X ^ 2 + C β * X + C γ)) n = α * cz f (n - 2) + β * cz f (n - 1) + γ * cz f n := by
  by_cases h : 0 ≤ n
  · obtain ⟨m, rfl⟩ := Int.eq_ofNat_of_zero_le h
    rw [cz_nat, coeff_quad_mul]
  · simp only [cz]
    rw [if_neg h, if_neg (by omega), if_neg (by omega), if_neg (by omega)]
    ring

theorem NLC.quad_mul {f : ℝ[X]} (h : NLC f) {α β γ : ℝ} (hα : 0 ≤ α) (hβ : 0 ≤ β) (hγ : 0 ≤ γ) (hd : α * γ ≤ β ^ 2) :
    NLC (f * (C α * X ^ 2 + C β * X + C γ)) := by
  constructor
  · intro n
    rw [coeff_quad_mul]
    have := h.cz_nonneg ((n : ℤ) - 2)
    have := h.cz_nonneg ((n : ℤ) - 1)
    have := h.cz_nonneg n
    positivity
  · intro i j hij
    rw [cz_quad_mul, cz_quad_mul, cz_quad_mul, cz_quad_mul]
    rw [show i - 1 - 2 = i - 3 by ring, show i - 1 - 1 = i - 2 by ring, show j + 1 - 2 = j - 1 by ring, show j + 1 - 1 = j by ring]
    have a1 := h.spread' (m := i - 3) (n := j - 1) (i := i - 2) (j := j - 2) (by omega) (by omega) (by omega)
    have a2 := h.spread' (m := i - 2) (n := j) (i := i - 1) (j := j - 1) (by omega) (by omega) (by omega)
    have a3 := h.spread' (m := i - 1) (n := j + 1) (i := i) (j := j) (by omega) (by omega) (by omega)
    have a4 := h.spread' (m := i - 3) (n := j) (i := i - 1) (j := j - 2) (by omega) (by omega) (by omega)
    have a5 := h.spread' (m := i - 2) (n := j + 1) (i := i) (j := j - 1) (by omega) (by omega) (by omega)
    have a6 := h.spread' (m := i - 3) (n := j + 1) (i := i) (j := j - 2) (by omega) (by omega) (by omega)
    have b1 := mul_nonneg (mul_nonneg hα hα) (sub_nonneg.2 a1)
    have b2 := mul_nonneg (sub_nonneg.2 hd) (sub_nonneg.2 a2)
    have b3 := mul_nonneg (mul_nonneg hγ hγ) (sub_nonneg.2 a3)
    have b4 := mul_nonneg (mul_nonneg hα hβ) (sub_nonneg.2 a4)
    have b5 := mul_nonneg (mul_nonneg hβ hγ) (sub_nonneg.2 a5)
    have b6 := mul_nonneg (mul_nonneg hα hγ) (sub_nonneg.2 a6)
    nlinarith

theorem NLC.one : NLC (1 : ℝ[X]) := by
  constructor
  · intro n
    rw [coeff_one]
    split <;> norm_num
  · intro i j hij
    by_cases h : 0 ≤ i - 1
    · have : cz (1 : ℝ[X]) (j + 1) = 0 := by
        rw [cz, if_pos (by omega), coeff_one, if_neg (by omega)]
      rw [this, mul_zero]
      have : ∀ n, 0 ≤ cz (1 : ℝ[X]) n := by
        intro n
        unfold cz
        split
        · rw [coeff_one]; split <;> norm_num
        · exact le_rfl
      exact mul_nonneg (this _) (this _)
    · have : cz (1 : ℝ[X]) (i - 1) = 0 := by rw [cz, if_neg h]
      rw [this, zero_mul]
      have : ∀ n, 0 ≤ cz (1 : ℝ[X]) n := by
        intro n
        unfold cz
        split
        · rw [coeff_one]; split <;> norm_num
        · exact le_rfl
      exact mul_nonneg (this _) (this _)

theorem NLC.linear_mul_upOnce {f : ℝ[X]} (h : NLC f) {r s : ℝ} (hr : 0 < r) (hs : 0 < s) : UpOnce (f * (C 0 * X ^ 2 + C r * X + C (-s))) := by
  intro n m hnm hn
  rw [coeff_quad_mul] at hn ⊢
  have a1 := h.spread' (m := (n : ℤ) - 1) (n := m) (i := n) (j := (m : ℤ) - 1) (by omega) (by omega) (by omega)
  have h1 := h.cz_nonneg ((n : ℤ) - 1)
  have h2 := h.cz_nonneg n
  have h3 := h.cz_nonneg ((m : ℤ) - 1)
  have h4 := h.cz_nonneg m
  have h5 : 0 < cz f ((n : ℤ) - 1) := by
    rcases lt_or_eq_of_le h1 with h6 | h6
    · exact h6
    · rw [← h6] at hn
      have := mul_nonneg hs.le h2
      linarith
  have h6 : 0 ≤ cz f ((n : ℤ) - 1) * (r * cz f ((m : ℤ) - 1) - s * cz f m) := by
    have h7 : s * cz f n ≤ r * cz f ((n : ℤ) - 1) := by linarith
    have h8 := mul_le_mul_of_nonneg_right h7 h3
    have h9 := mul_le_mul_of_nonneg_left a1 hs.le
    nlinarith
  have := nonneg_of_mul_nonneg_right h6 h5
  linarith

/-! ## The transformed factors -/

/-- The polynomial on the interval from `a` with the width `w`, moved to (0, 1). -/
noncomputable def onIv (a w : ℝ) (p : ℝ[X]) : ℝ[X] := p.comp (C w * X + C a)

theorem reverse_quad {A B D : ℝ} (hA : A ≠ 0) : (C A * X ^ 2 + C B * X + C D : ℝ[X]).reverse = C D * X ^ 2 + C B * X + C A := by
  rw [reverse, natDegree_quadratic hA]
  have e1 : (C A * X ^ 2 + C B * X + C D : ℝ[X]) = C A * X ^ 2 + C B * X ^ 1 + C D * X ^ 0 := by simp
  rw [e1, reflect_add, reflect_add, reflect_C_mul_X_pow, reflect_C_mul_X_pow, reflect_C_mul_X_pow]
  rw [revAt_le (by omega), revAt_le (by omega), revAt_le (by omega)]
  simp
  ring

theorem phi_quad {A B D : ℝ} (hA : A ≠ 0) : phi (C A * X ^ 2 + C B * X + C D) = C D * X ^ 2 + C (2 * D + B) * X + C (A + B + D) := by
  unfold phi
  rw [reverse_quad hA]
  have e2 : (C 2 : ℝ[X]) = 2 := map_ofNat C 2
  simp [e2]
  ring

theorem phi_linear {B D : ℝ} (hB : B ≠ 0) (hD : D ≠ 0) : phi (C B * X + C D) = C 0 * X ^ 2 + C D * X + C (B + D) := by
  unfold phi
  have e1 : (C B * X + C D : ℝ[X]) = C B * X ^ 1 + C D * X ^ 0 := by simp
  rw [reverse, natDegree_linear hB, e1, reflect_add, reflect_C_mul_X_pow, reflect_C_mul_X_pow, revAt_le (by omega), revAt_le (by omega)]
  simp
  ring

theorem phi_C (c : ℝ) : phi (C c) = C c := by unfold phi; simp

theorem phi_C_mul (c : ℝ) (q : ℝ[X]) : phi (C c * q) = C c * phi q := by rw [phi_mul, phi_C]

theorem phi_X_mul (q : ℝ[X]) : phi (X * q) = phi q := by
  unfold phi
  rw [reverse_X_mul]

theorem phi_neg (q : ℝ[X]) : phi (-q) = -phi q := by
  have := phi_C_mul (-1) q
  simpa using this

/-- Up to the sign nonnegative and logarithmically concave. -/
def SNLC (f : ℝ[X]) : Prop := NLC f ∨ NLC (-f)

theorem SNLC.neg {f : ℝ[X]} (h : SNLC f) : SNLC (-f) := by
  rcases h with h | h
  · exact Or.inr (by rwa [neg_neg])
  · exact Or.inl h

theorem SNLC.quad_mul {f : ℝ[X]} (h : SNLC f) {α β γ : ℝ} (hα : 0 ≤ α) (hβ : 0 ≤ β) (hγ : 0 ≤ γ) (hd : α * γ ≤ β ^ 2) :
    SNLC (f * (C α * X ^ 2 + C β * X + C γ)) := by
  rcases h with h | h
  · exact Or.inl (h.quad_mul hα hβ hγ hd)
  · right
    rw [← neg_mul]
    exact h.quad_mul hα hβ hγ hd

theorem SNLC.const_mul {f : ℝ[X]} (h : SNLC f) (c : ℝ) : SNLC (f * C c) := by
  rcases le_total 0 c with hc | hc
  · have := h.quad_mul (α := 0) (β := 0) (γ := c) le_rfl le_rfl hc (by simp)
    simpa using this
  · have := (h.quad_mul (α := 0) (β := 0) (γ := -c) le_rfl le_rfl (by linarith) (by simp)).neg
    simpa using this

theorem onIv_linear (a w z : ℝ) : onIv a w (X - C z) = C w * X + C (a - z) := by
  unfold onIv
  simp
  ring

theorem SNLC.linear {f : ℝ[X]} (h : SNLC f) {a w z : ℝ} (hw : 0 < w) (hz : ¬ (a < z ∧ z < a + w)) : SNLC (f * phi (onIv a w (X - C z))) := by
  rw [onIv_linear]
  by_cases h0 : a - z = 0
  · rw [h0, C_0, add_zero, mul_comm (C w), phi_X_mul, phi_C]
    exact h.const_mul w
  · rw [phi_linear hw.ne' h0]
    rcases lt_or_ge a z with h1 | h1
    · have h2 : a + w ≤ z := by
        by_contra hc
        exact hz ⟨h1, not_le.1 hc⟩
      have := (h.quad_mul (α := 0) (β := z - a) (γ := z - a - w) le_rfl (by linarith) (by linarith) (by nlinarith)).neg
      convert this using 1
      rw [← mul_neg]
      congr 1
      simp only [map_sub, map_add, map_zero]
      ring
    · exact h.quad_mul le_rfl (by linarith) (by linarith) (by nlinarith)

theorem onIv_quad (a w u v : ℝ) :
    onIv a w (X ^ 2 - C (2 * u) * X + C (u ^ 2 + v ^ 2)) = C (w ^ 2) * X ^ 2 + C (2 * w * (a - u)) * X + C ((a - u) ^ 2 + v ^ 2) := by
  unfold onIv
  have e2 : (C 2 : ℝ[X]) = 2 := map_ofNat C 2
  simp [e2]
  ring

theorem SNLC.quadratic {f : ℝ[X]} (h : SNLC f) {a w u v : ℝ} (hw : 0 < w) (hv : 3 * w ≤ |v|) :
    SNLC (f * phi (onIv a w (X ^ 2 - C (2 * u) * X + C (u ^ 2 + v ^ 2)))) := by
  rw [onIv_quad, phi_quad (by positivity)]
  have hv2 : 9 * w ^ 2 ≤ v ^ 2 := by
    have : (3 * w) ^ 2 ≤ |v| ^ 2 := pow_le_pow_left₀ (by positivity) hv 2
    rw [sq_abs] at this
    nlinarith
  have hb : 0 ≤ 2 * ((a - u) ^ 2 + v ^ 2) + 2 * w * (a - u) := by nlinarith [sq_nonneg (a - u + w)]
  refine h.quad_mul (by positivity) hb (by nlinarith [sq_nonneg (a - u + w)]) ?_
  set t := a - u
  -- with `A = t² + v²`: `A (A + 2 w t + w²) ≤ 4 (A + w t)²`
  have hA : 9 * w ^ 2 ≤ t ^ 2 + v ^ 2 := by nlinarith [sq_nonneg t]
  have h1 : (w * t) ^ 2 ≤ w ^ 2 * (t ^ 2 + v ^ 2) := by nlinarith [sq_nonneg (w * v)]
  generalize t ^ 2 + v ^ 2 = A at *
  have hA0 : 0 ≤ A := by nlinarith
  have h2 : w ^ 2 * A ≤ A ^ 2 / 9 := by nlinarith
  have h3 : -(A / 3) ≤ w * t := by
    by_contra hc
    have : (A / 3) ^ 2 < (w * t) ^ 2 := by nlinarith
    nlinarith
  nlinarith [mul_nonneg hA0 (sub_nonneg.2 h3)]

/-- A polynomial all of whose roots are far away or outside. -/
theorem snlc_of_roots {a w : ℝ} (hw : 0 < w) (p : ℝ[X]) (hp : p ≠ 0) (hreal : ∀ x, a < x → x < a + w → p.eval x ≠ 0)
    (hcomplex : ∀ z : ℂ, aeval z p = 0 → z.im ≠ 0 → 3 * w ≤ |z.im|) : SNLC (phi (onIv a w p)) := by
  induction p using WfDvdMonoid.induction_on_irreducible with
  | zero => exact absurd rfl hp
  | unit u hu =>
    obtain ⟨c, -, rfl⟩ := isUnit_iff.1 hu
    have : onIv a w (C c) = C c := by unfold onIv; simp
    rw [this, phi_C]
    have := SNLC.const_mul (Or.inl NLC.one) c
    rwa [one_mul] at this
  | mul f i hf hi ih =>
    have ih' := ih hf (fun x h1 h2 h3 => hreal x h1 h2 (by rw [eval_mul, h3, mul_zero])) (fun z hz => hcomplex z (by rw [map_mul, hz, mul_zero]))
    have hsplit : ∀ g : ℝ[X], ¬ IsUnit g → g ∣ i → ∃ c, i = g * C c := by
      intro g hg ⟨k, hk⟩
      rcases hi.isUnit_or_isUnit hk with h1 | h1
      · exact absurd h1 hg
      · obtain ⟨c, -, rfl⟩ := isUnit_iff.1 h1
        exact ⟨c, hk⟩
    have hon : ∀ p q : ℝ[X], onIv a w (p * q) = onIv a w p * onIv a w q := fun p q => by unfold onIv; rw [mul_comp]
    have honC : ∀ c, onIv a w (C c) = C c := fun c => by unfold onIv; simp
    obtain ⟨z, hz⟩ := Complex.exists_root (f := i.map (algebraMap ℝ ℂ)) (by rw [degree_map]; exact hi.degree_pos)
    have hz' : aeval z i = 0 := by rwa [IsRoot, eval_map_algebraMap] at hz
    by_cases him : z.im = 0
    · have hz2 : i.eval z.re = 0 := by
        have e : z = (algebraMap ℝ ℂ) z.re := by apply Complex.ext <;> simp [him]
        rw [e, aeval_algebraMap_apply] at hz'
        simpa using hz'
      obtain ⟨c, hc⟩ := hsplit (X - C z.re) (not_isUnit_X_sub_C _) (dvd_iff_isRoot.2 hz2)
      have hout : ¬ (a < z.re ∧ z.re < a + w) := fun hh => hreal _ hh.1 hh.2 (by rw [eval_mul, hz2, zero_mul])
      rw [hon, phi_mul, mul_comm, hc, hon, phi_mul, honC, phi_C, ← mul_assoc]
      exact (ih'.linear hw hout).const_mul c
    · obtain ⟨c, hc⟩ := hsplit _ (by
        intro hu
        have h1 := natDegree_eq_zero_of_isUnit hu
        have e : (X ^ 2 - C (2 * z.re) * X + C (‖z‖ ^ 2) : ℝ[X]) = C 1 * X ^ 2 + C (-(2 * z.re)) * X + C (‖z‖ ^ 2) := by simp; ring
        rw [e, natDegree_quadratic one_ne_zero] at h1
        omega) (quadratic_dvd_of_aeval_eq_zero_im_ne_zero i hz' him)
      have hn : ‖z‖ ^ 2 = z.re ^ 2 + z.im ^ 2 := by rw [← Complex.normSq_eq_norm_sq, Complex.normSq_apply]; ring
      rw [hn] at hc
      rw [hon, phi_mul, mul_comm, hc, hon, phi_mul, honC, phi_C, ← mul_assoc]
      exact (ih'.quadratic hw (hcomplex z (by rw [map_mul, hz', zero_mul]) him)).const_mul c

theorem SNLC.upOnce {f : ℝ[X]} (h : SNLC f) : UpOnce f ∨ UpOnce (-f) := by
  rcases h with h | h
  · exact Or.inl fun n m _ _ => h.nonneg m
  · exact Or.inr fun n m _ _ => h.nonneg m

theorem SNLC.linear_upOnce {f : ℝ[X]} (h : SNLC f) {r s : ℝ} (hr : 0 < r) (hs : 0 < s) :
    UpOnce (f * (C 0 * X ^ 2 + C r * X + C (-s))) ∨ UpOnce (-(f * (C 0 * X ^ 2 + C r * X + C (-s)))) := by
  rcases h with h | h
  · exact Or.inl (h.linear_mul_upOnce hr hs)
  · right
    rw [← neg_mul]
    exact h.linear_mul_upOnce hr hs

/-- Vincent: there is a width from which on every interval gives at most one sign change, for a squarefree polynomial and its divisors. -/
theorem exists_width {p : ℝ[X]} (hp : p ≠ 0) (hsq : Squarefree p) :
    ∃ W > 0, ∀ g, g ∣ p → ∀ a w, 0 < w → w < W → UpOnce (phi (onIv a w g)) ∨ UpOnce (-phi (onIv a w g)) := by
  classical
  -- the imaginary parts and the distances of the roots
  let Z := (p.map (algebraMap ℝ ℂ)).roots.toFinset
  let R := p.roots.toFinset
  let S : Finset ℝ := (Z.image fun z => |z.im| / 3) ∪ ((R ×ˢ R).image fun q => |q.1 - q.2|)
  let S' := S.filter (0 < ·)
  obtain ⟨W, hW, hmin⟩ : ∃ W > 0, ∀ s ∈ S', W ≤ s := by
    by_cases hne : S'.Nonempty
    · exact ⟨S'.min' hne, (Finset.mem_filter.1 (S'.min'_mem hne)).2, fun s hs => S'.min'_le s hs⟩
    · exact ⟨1, one_pos, fun s hs => absurd ⟨s, hs⟩ hne⟩
  refine ⟨W, hW, fun g hg a w hw hwW => ?_⟩
  have hg0 : g ≠ 0 := fun e => hp (by rw [e, zero_dvd_iff] at hg; exact hg)
  have hgsq : Squarefree g := hsq.squarefree_of_dvd hg
  have hpc : p.map (algebraMap ℝ ℂ) ≠ 0 := by rwa [Ne, Polynomial.map_eq_zero]
  have hcomplex : ∀ z : ℂ, aeval z p = 0 → z.im ≠ 0 → 3 * w ≤ |z.im| := by
    intro z hz him
    have h1 : |z.im| / 3 ∈ S' := by
      refine Finset.mem_filter.2 ⟨Finset.mem_union_left _ (Finset.mem_image.2 ⟨z, ?_, rfl⟩), by have := abs_pos.2 him; linarith⟩
      rw [Multiset.mem_toFinset, mem_roots hpc, IsRoot, eval_map_algebraMap]
      exact hz
    have := hmin _ h1
    linarith
  have hsep : ∀ x y, p.eval x = 0 → p.eval y = 0 → x ≠ y → w < |x - y| := by
    intro x y hx hy hxy
    have h1 : |x - y| ∈ S' := by
      refine Finset.mem_filter.2 ⟨Finset.mem_union_right _ (Finset.mem_image.2 ⟨(x, y), ?_, rfl⟩), abs_pos.2 (sub_ne_zero.2 hxy)⟩
      rw [Finset.mem_product, Multiset.mem_toFinset, Multiset.mem_toFinset, mem_roots hp, mem_roots hp]
      exact ⟨hx, hy⟩
    have := hmin _ h1
    linarith
  have hcomplex : ∀ z : ℂ, aeval z g = 0 → z.im ≠ 0 → 3 * w ≤ |z.im| := by
    obtain ⟨k, hk⟩ := hg
    exact fun z hz => hcomplex z (by rw [hk, map_mul, hz, zero_mul])
  have hsep : ∀ x y, g.eval x = 0 → g.eval y = 0 → x ≠ y → w < |x - y| := by
    obtain ⟨k, hk⟩ := hg
    exact fun x y hx hy => hsep x y (by rw [hk, eval_mul, hx, zero_mul]) (by rw [hk, eval_mul, hy, zero_mul])
  clear hg
  by_cases hroot : ∃ z, a < z ∧ z < a + w ∧ g.eval z = 0
  · obtain ⟨z, h1, h2, h3⟩ := hroot
    obtain ⟨q, rfl⟩ := dvd_iff_isRoot.2 h3
    have hq : q ≠ 0 := right_ne_zero_of_mul hg0
    have hs : SNLC (phi (onIv a w q)) := by
      refine snlc_of_roots hw q hq (fun x hx1 hx2 hx => ?_) (fun y hy => hcomplex y (by rw [map_mul, hy, mul_zero]))
      by_cases hxz : x = z
      · subst hxz
        obtain ⟨k, rfl⟩ := dvd_iff_isRoot.2 hx
        exact not_isUnit_X_sub_C x (hgsq (X - C x) ⟨k, by ring⟩)
      · have := hsep x z (by rw [eval_mul, hx, mul_zero]) h3 hxz
        rcases abs_lt.1 (show |x - z| < w by rw [abs_lt]; constructor <;> linarith) with ⟨h5, h6⟩
        have : |x - z| < w := abs_lt.2 ⟨h5, h6⟩
        linarith
    have e : phi (onIv a w ((X - C z) * q)) = -(phi (onIv a w q) * (C 0 * X ^ 2 + C (z - a) * X + C (-(a + w - z)))) := by
      have : onIv a w ((X - C z) * q) = onIv a w (X - C z) * onIv a w q := by unfold onIv; rw [mul_comp]
      rw [this, phi_mul, onIv_linear, phi_linear hw.ne' (by intro h; linarith), mul_comm, ← mul_neg]
      congr 1
      simp only [map_sub, map_add, map_zero, map_neg]
      ring
    rw [e, neg_neg]
    exact (hs.linear_upOnce (by linarith) (by linarith)).symm
  · exact (snlc_of_roots hw g hg0 (fun x h1 h2 h3 => hroot ⟨x, h1, h2, h3⟩) hcomplex).upOnce

end Verif.RealRoots
