import Verif.Proofs.RealAlgMul

/-!
# The root in one interval of a squarefree polynomial
-/

namespace Verif.RealRoots

open Polynomial Verif.Rings

theorem ends_neg {f : ℝ[X]} {a b : ℚ} {d : Bool}
    (h : if d then f.eval (a : ℝ) < 0 ∧ 0 < f.eval (b : ℝ) else 0 < f.eval (a : ℝ) ∧ f.eval (b : ℝ) < 0) : f.eval (a : ℝ) * f.eval (b : ℝ) < 0 := by
  cases d
  · simp only [Bool.false_eq_true, if_false] at h; exact mul_neg_of_pos_of_neg h.1 h.2
  · simp only [if_true] at h; exact mul_neg_of_neg_of_pos h.1 h.2

/-- A factor of a squarefree polynomial changes its sign on an isolating interval exactly if the root is its root. -/
theorem factor_sign {p f : ℝ[X]} (hsq : Squarefree p) (hf : f ∣ p) {a b : ℚ} {d : Bool} {r : ℝ} (h : (RootIv.real a b d).Isolates p r) :
    f.eval (a : ℝ) ≠ 0 ∧ f.eval (b : ℝ) ≠ 0 ∧ (f.eval r = 0 → f.eval (a : ℝ) * f.eval (b : ℝ) < 0) ∧
      (f.eval r ≠ 0 → 0 < f.eval (a : ℝ) * f.eval (b : ℝ)) := by
  obtain ⟨g, rfl⟩ := hf
  obtain ⟨h1, h2, h3, h4, h5⟩ := h
  have hs := ends_neg h5
  have hab : (a : ℝ) ≤ b := (h1.trans h2).le
  rw [eval_mul, eval_mul] at hs
  refine ⟨fun e => by rw [e] at hs; simp at hs, fun e => by rw [e] at hs; simp at hs, fun hr => ?_, fun hr => ?_⟩
  · have hg : g.eval r ≠ 0 := by
      intro e
      obtain ⟨k, hk⟩ := dvd_iff_isRoot.2 (show IsRoot f r from hr)
      obtain ⟨l, hl⟩ := dvd_iff_isRoot.2 (show IsRoot g r from e)
      have : IsUnit (X - C r) := hsq (X - C r) ⟨k * l, by rw [hk, hl]; ring⟩
      have := natDegree_eq_zero_of_isUnit this
      rw [natDegree_X_sub_C] at this
      exact one_ne_zero this
    have hgg := same_sign (g := g) hab (fun x x1 x2 e => hg (by rw [← h4 x x1 x2 (by rw [eval_mul, e, mul_zero])]; exact e))
    by_contra hc
    have := mul_nonneg (not_lt.1 hc) hgg.le
    nlinarith
  · exact same_sign (g := f) hab (fun x x1 x2 e => hr (by rw [← h4 x x1 x2 (by rw [eval_mul, e, zero_mul])]; exact e))

theorem sign_ne {x y : ℚ} (hx : x ≠ 0) (hy : y ≠ 0) : (decide (x ≥ 0) != decide (y ≥ 0)) = true ↔ x * y < 0 := by
  rcases lt_or_gt_of_ne hx with h1 | h1 <;> rcases lt_or_gt_of_ne hy with h2 | h2
  · simp [not_le.2 h1, not_le.2 h2, (mul_pos_of_neg_of_neg h1 h2).le]
  · simp [not_le.2 h1, h2.le, mul_neg_of_neg_of_pos h1 h2]
  · simp [h1.le, not_le.2 h2, mul_neg_of_pos_of_neg h1 h2]
  · simp [h1.le, h2.le, (mul_pos h1 h2).le]

/-- One factor. -/
theorem tryFactor_spec {R : SqRoots} {rs : List ℝ} (h : R.All rs) (hp : (ipoly R.poly).IsPrimitive) (hsq : Squarefree (ipoly R.poly))
    {i : Nat} (hi : i < R.ivs.length) {a b : ℚ} {d : Bool} (hiv : R.ivs[i] = .real a b d) {fk : List Int × Nat} (hk : 0 < fk.2)
    (hfk : FactorOk fk.1) (hdvd : ipoly fk.1 ^ fk.2 ∣ ipoly R.poly) :
    ∃ o, R.tryFactor i a b fk = some o ∧
      ((rv fk.1).eval (rs[i]'(h.isolates.isolates.length_eq ▸ hi)) = 0 → ∃ x, o = some x ∧ x.Is (rs[i]'(h.isolates.isolates.length_eq ▸ hi))) ∧
      ((rv fk.1).eval (rs[i]'(h.isolates.isolates.length_eq ▸ hi)) ≠ 0 → o = none) := by
  have hI := h.isolates.get hi
  rw [hiv] at hI
  set r := rs[i]'(h.isolates.isolates.length_eq ▸ hi) with hr
  have hd1 : ipoly fk.1 ∣ ipoly R.poly := (dvd_pow_self _ hk.ne').trans hdvd
  have hk1 : fk.2 = 1 := by
    by_contra hc
    have h2 : 2 ≤ fk.2 := by omega
    exact hfk.irreducible.not_isUnit (hsq _ (by rw [← sq]; exact (pow_dvd_pow _ h2).trans hdvd))
  have hdeg := intGcd_models.toSemi.polyDegree_some fk.1 hfk.irreducible.ne_zero
  have hd0 : (ipoly fk.1).natDegree ≠ 0 := by
    intro e
    obtain ⟨c, hc⟩ := natDegree_eq_zero.1 e
    rw [← hc] at hd1
    exact hfk.irreducible.not_isUnit (by rw [← hc]; exact isUnit_C.2 (hp c hd1))
  have hsqr : Squarefree (rv R.poly) := by rw [rv_eq]; exact squarefree_real hp hsq
  obtain ⟨s1, s2, s3, s4⟩ := factor_sign hsqr (rv_dvd hd1) hI
  have e1 : evalAtRat fk.1 a ≠ 0 := fun e => s1 ((evalAtRat_zero _ _).1 e)
  have e2 : evalAtRat fk.1 b ≠ 0 := fun e => s2 ((evalAtRat_zero _ _).1 e)
  have hsign : evalAtRat fk.1 a * evalAtRat fk.1 b < 0 ↔ (rv fk.1).eval (a : ℝ) * (rv fk.1).eval (b : ℝ) < 0 := by
    rw [← evalAtRat_eq, ← evalAtRat_eq]; norm_cast
  unfold SqRoots.tryFactor
  have a1 : (fk.2 == 1) = true := by simp [hk1]
  have a2 : ((ipoly fk.1).natDegree != 0) = true := by simpa using hd0
  have a3 : (evalAtRat fk.1 a != 0) = true := by simpa using e1
  have a4 : (evalAtRat fk.1 b != 0) = true := by simpa using e2
  simp only [a1, hdeg, a2, a3, a4, assertThat, if_true, Option.bind_eq_bind, Option.bind_some]
  by_cases hroot : (rv fk.1).eval r = 0
  · rw [if_pos ((sign_ne e1 e2).2 (hsign.2 (s3 hroot)))]
    by_cases hd : (ipoly fk.1).natDegree = 1
    · rw [if_pos hd]
      obtain ⟨q, q1, q2⟩ := uniqueLinearRoot_spec hd
      simp only [q1, Option.bind_some]
      exact ⟨_, rfl, fun _ => ⟨_, rfl, (q2 _).1 hroot⟩, fun hn => absurd hroot hn⟩
    · rw [if_neg hd]
      obtain ⟨wa, wb, w1, w2, w3⟩ := h.wide hi hiv
      simp only [w1, Option.bind_some]
      refine ⟨_, rfl, fun _ => ⟨_, rfl, ?_⟩, fun hn => absurd hroot hn⟩
      have up : ∀ y : ℝ, (rv fk.1).eval y = 0 → (rv R.poly).eval y = 0 := by
        intro y hy
        obtain ⟨g, hg⟩ := rv_dvd hd1
        rw [hg, eval_mul, hy, zero_mul]
      refine ⟨hfk.reduced, hfk.irreducible, hfk.positive, by change 2 ≤ (ipoly fk.1).natDegree; omega, ⟨hI.1, hI.2.1, hroot,
        fun y y1 y2 y3 => hI.2.2.2.1 y y1 y2 (up y y3), ?_⟩, w2, fun y y1 y2 => w3 y (up y y1) y2⟩
      have hs := s3 hroot
      change if decide (evalAtRat fk.1 b ≥ 0) = true then (rv fk.1).eval (a : ℝ) < 0 ∧ 0 < (rv fk.1).eval (b : ℝ)
        else 0 < (rv fk.1).eval (a : ℝ) ∧ (rv fk.1).eval (b : ℝ) < 0
      by_cases hb : evalAtRat fk.1 b ≥ 0
      · rw [if_pos (by simpa using hb)]
        have hb' := lt_of_le_of_ne ((evalAtRat_nonneg _ _).1 hb) (Ne.symm s2)
        exact ⟨by nlinarith, hb'⟩
      · rw [if_neg (by simpa using hb)]
        have hb' := (evalAtRat_neg _ _).1 (not_le.1 hb)
        exact ⟨by nlinarith, hb'⟩
  · rw [if_neg (fun hc => by
      have h1 := hsign.1 ((sign_ne e1 e2).1 hc)
      have h2 := s4 hroot
      linarith)]
    exact ⟨_, rfl, fun hn => absurd hn hroot, fun _ => rfl⟩

/-- The search through the factors. -/
theorem findFactor_spec {R : SqRoots} {rs : List ℝ} (h : R.All rs) (hp : (ipoly R.poly).IsPrimitive) (hsq : Squarefree (ipoly R.poly))
    {i : Nat} (hi : i < R.ivs.length) {a b : ℚ} {d : Bool} (hiv : R.ivs[i] = .real a b d) (l : List (List Int × Nat))
    (hl : ∀ q ∈ l, 0 < q.2 ∧ FactorOk q.1 ∧ ipoly q.1 ^ q.2 ∣ ipoly R.poly)
    (hex : ∃ q ∈ l, (rv q.1).eval (rs[i]'(h.isolates.isolates.length_eq ▸ hi)) = 0) :
    ∃ x, R.findFactor i a b l = some x ∧ x.Is (rs[i]'(h.isolates.isolates.length_eq ▸ hi)) := by
  induction l with
  | nil => obtain ⟨q, hq, -⟩ := hex; simp at hq
  | cons fk l ih =>
    obtain ⟨h1, h2, h3⟩ := hl fk (by simp)
    obtain ⟨o, o1, o2, o3⟩ := tryFactor_spec h hp hsq hi hiv h1 h2 h3
    unfold SqRoots.findFactor
    simp only [o1, Option.bind_eq_bind, Option.bind_some]
    by_cases hroot : (rv fk.1).eval (rs[i]'(h.isolates.isolates.length_eq ▸ hi)) = 0
    · obtain ⟨x, rfl, hx⟩ := o2 hroot
      exact ⟨x, rfl, hx⟩
    · rw [o3 hroot]
      refine ih (fun q hq => hl q (by simp [hq])) ?_
      obtain ⟨q, q1, q2⟩ := hex
      rcases List.mem_cons.1 q1 with rfl | q1
      · exact absurd q2 hroot
      · exact ⟨q, q1, q2⟩

/-- `get_real_root`. -/
theorem getRealRoot_spec {fac : Fac} (hf : FacOk fac) {R : SqRoots} {rs : List ℝ} (h : R.All rs) (hp : (ipoly R.poly).IsPrimitive)
    (hsq : Squarefree (ipoly R.poly)) {i : Nat} (hi : i < R.ivs.length) :
    ∃ x, R.getRealRoot fac i = some x ∧ x.Is (rs[i]'(h.isolates.isolates.length_eq ▸ hi)) := by
  have hI := h.isolates.get hi
  unfold SqRoots.getRealRoot
  rw [List.getElem?_eq_getElem hi]
  simp only [Option.bind_eq_bind, Option.bind_some]
  cases hiv : R.ivs[i] with
  | rational a => rw [hiv] at hI; exact ⟨_, rfl, hI.1⟩
  | real a b d =>
    obtain ⟨pf, e, hv, ha, hfac⟩ := hf.spec hp.ne_zero
    simp only [e, Option.bind_some]
    rw [hiv] at hI
    obtain ⟨q, q1, q2⟩ := factor_root hv hp.ne_zero ha hI.2.2.1
    refine findFactor_spec h hp hsq hi hiv pf.factors (fun q hq => ⟨hv.pos q hq, (hfac q hq).1, ?_⟩) ⟨q, q1, q2⟩
    refine Dvd.dvd.trans ?_ ha.dvd
    unfold Factored.denote
    exact Dvd.dvd.mul_left (List.dvd_prod (List.mem_map.2 ⟨q, hq, rfl⟩)) _

end Verif.RealRoots
