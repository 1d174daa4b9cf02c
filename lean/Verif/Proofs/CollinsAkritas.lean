import Verif.Proofs.RealPoly

/-!
# The bisection of Collins and Akritas ends and isolates
-/

namespace Verif.RealRoots

open Polynomial Verif.Rings

/-- The lower end of a triple. -/
noncomputable def tlo (t : Nat × Nat × Bool) : ℝ := (t.1 : ℝ) / 2 ^ t.2.1

/-- The upper end of a triple. -/
noncomputable def thi (t : Nat × Nat × Bool) : ℝ := if t.2.2 then ((t.1 : ℝ) + 1) / 2 ^ t.2.1 else tlo t

/-- A triple isolates a root. -/
def TripOk (g : ℝ[X]) (t : Nat × Nat × Bool) (r : ℝ) : Prop :=
  if t.2.2 then tlo t < r ∧ r < thi t ∧ ∀ x, tlo t < x → x < thi t → g.eval x = 0 → x = r else r = tlo t

/-- A list of triples isolates the roots in `[a, b)`. -/
structure CaOut (g : ℝ[X]) (a b : ℝ) (out : List (Nat × Nat × Bool)) (rs : List ℝ) : Prop where
  sorted : rs.Pairwise (· < ·)
  mem : ∀ x, x ∈ rs ↔ a ≤ x ∧ x < b ∧ g.eval x = 0
  trip : List.Forall₂ (TripOk g) out rs
  bnd : ∀ t ∈ out, a ≤ tlo t ∧ thi t ≤ b
  order : out.Pairwise fun t t' => thi t ≤ tlo t'

theorem CaOut.append {g : ℝ[X]} {a m b : ℝ} {o1 o2 : List (Nat × Nat × Bool)} {r1 r2 : List ℝ} (ham : a ≤ m) (hmb : m ≤ b)
    (h1 : CaOut g a m o1 r1) (h2 : CaOut g m b o2 r2) : CaOut g a b (o1 ++ o2) (r1 ++ r2) where
  sorted := by
    rw [List.pairwise_append]
    exact ⟨h1.sorted, h2.sorted, fun x hx y hy => lt_of_lt_of_le ((h1.mem x).1 hx).2.1 ((h2.mem y).1 hy).1⟩
  mem x := by
    rw [List.mem_append, h1.mem, h2.mem]
    constructor
    · rintro (⟨u, v, w⟩ | ⟨u, v, w⟩)
      · exact ⟨u, by linarith, w⟩
      · exact ⟨by linarith, v, w⟩
    · rintro ⟨u, v, w⟩
      rcases lt_or_ge x m with h | h
      · exact Or.inl ⟨u, h, w⟩
      · exact Or.inr ⟨h, v, w⟩
  trip := List.rel_append h1.trip h2.trip
  bnd t ht := by
    rcases List.mem_append.1 ht with h | h
    · have := h1.bnd t h; exact ⟨this.1, by linarith⟩
    · have := h2.bnd t h; exact ⟨by linarith, this.2⟩
  order := by
    rw [List.pairwise_append]
    exact ⟨h1.order, h2.order, fun x hx y hy => (h1.bnd x hx).2.trans (h2.bnd y hy).1⟩

/-- A root at the left end, found exactly. -/
theorem CaOut.root {g : ℝ[X]} {a b : ℝ} {o : List (Nat × Nat × Bool)} {rs : List ℝ} {c k : Nat} (hab : a < b)
    (ha : a = tlo (c, k, false)) (hg : g.eval a ≠ 0) (h : CaOut g a b o rs) :
    CaOut ((X - C a) * g) a b ((c, k, false) :: o) (a :: rs) where
  sorted := by
    rw [List.pairwise_cons]
    refine ⟨fun x hx => ?_, h.sorted⟩
    have h1 := (h.mem x).1 hx
    exact lt_of_le_of_ne h1.1 (fun e => hg (by rw [e]; exact h1.2.2))
  mem x := by
    rw [List.mem_cons, h.mem, eval_mul, mul_eq_zero]
    simp only [eval_sub, eval_X, eval_C, sub_eq_zero]
    constructor
    · rintro (rfl | ⟨u, v, w⟩)
      · exact ⟨le_rfl, hab, Or.inl rfl⟩
      · exact ⟨u, v, Or.inr w⟩
    · rintro ⟨u, v, w | w⟩
      · exact Or.inl w
      · exact Or.inr ⟨u, v, w⟩
  trip := by
    refine List.Forall₂.cons (by simp [TripOk, ha]) ?_
    have hb := h.bnd
    refine List.forall₂_iff_zip.2 ⟨h.trip.length_eq, fun {t r} htr => ?_⟩
    have h1 := (List.forall₂_iff_zip.1 h.trip).2 htr
    have h2 := hb t (List.of_mem_zip htr).1
    unfold TripOk at h1 ⊢
    split
    · rename_i hh
      rw [if_pos hh] at h1
      refine ⟨h1.1, h1.2.1, fun x hx1 hx2 hx => h1.2.2 x hx1 hx2 ?_⟩
      rw [eval_mul, mul_eq_zero] at hx
      rcases hx with hx | hx
      · simp only [eval_sub, eval_X, eval_C, sub_eq_zero] at hx
        exfalso
        linarith [h2.1]
      · exact hx
    · rename_i hh
      rwa [if_neg hh] at h1
  bnd t ht := by
    rcases List.mem_cons.1 ht with rfl | ht
    · have : thi (c, k, false) = tlo (c, k, false) := by simp [thi]
      rw [this, ← ha]; exact ⟨le_rfl, hab.le⟩
    · exact h.bnd t ht
  order := by
    rw [List.pairwise_cons]
    refine ⟨fun t ht => ?_, h.order⟩
    have : thi (c, k, false) = tlo (c, k, false) := by simp [thi]
    rw [this, ← ha]
    exact (h.bnd t ht).1

theorem UpOnce.scale {f : ℝ[X]} {κ : ℝ} (hκ : κ ≠ 0) (h : UpOnce f ∨ UpOnce (-f)) : UpOnce (C κ * f) ∨ UpOnce (-(C κ * f)) := by
  have pos : ∀ (μ : ℝ) (f : ℝ[X]), 0 < μ → UpOnce f → UpOnce (C μ * f) := by
    intro μ f hμ hf n m hnm h0
    rw [coeff_C_mul] at h0 ⊢
    exact mul_nonneg hμ.le (hf n m hnm (pos_of_mul_pos_right h0 hμ.le))
  have e : -(C κ * f) = C κ * -f := by ring
  have e2 : C κ * f = C (-κ) * -f := by simp
  rcases lt_or_gt_of_ne hκ with hk | hk
  · rcases h with h | h
    · right; rw [e2, ← mul_neg, neg_neg]; exact pos _ _ (by linarith) h
    · left; rw [e2]; exact pos _ _ (by linarith) h
  · rcases h with h | h
    · left; exact pos _ _ hk h
    · right; rw [e]; exact pos _ _ hk h

theorem onIv_mul (a w : ℝ) (p q : ℝ[X]) : onIv a w (p * q) = onIv a w p * onIv a w q := by unfold onIv; rw [mul_comp]

theorem onIv_eval (a w : ℝ) (p : ℝ[X]) (x : ℝ) : (onIv a w p).eval x = p.eval (a + w * x) := by
  unfold onIv; rw [eval_comp]; simp [add_comm]

theorem onIv_left (a w : ℝ) (p : ℝ[X]) : (onIv a w p).comp (C (1 / 2) * X) = onIv a (w / 2) p := by
  unfold onIv
  rw [comp_assoc]
  congr 1
  simp only [add_comp, mul_comp, C_comp, X_comp]
  rw [← mul_assoc, ← C_mul]
  congr 3
  ring

theorem onIv_right (a w : ℝ) (p : ℝ[X]) : (onIv a w p).comp (X + C 1) = onIv (a + w) w p := by
  unfold onIv
  rw [comp_assoc]
  congr 1
  simp only [add_comp, mul_comp, C_comp, X_comp, C_add]
  rw [mul_add, ← C_mul, mul_one]
  ring

/-- What the loop knows of a node. -/
structure NodeOk (P : ℝ[X]) (a w : ℝ) (q : List Int) (g : ℝ[X]) : Prop where
  red : PolyReduced (id : Int → Int) q
  dvd : g ∣ P
  scale : ∃ κ : ℝ, κ ≠ 0 ∧ rv q = C κ * onIv a w g

theorem onIv_ne {a w : ℝ} (hw : 0 < w) {g : ℝ[X]} (hg : g ≠ 0) : onIv a w g ≠ 0 := by
  unfold onIv
  intro h
  rw [comp_eq_zero_iff] at h
  rcases h with h | ⟨-, h⟩
  · exact hg h
  · have := congrArg (fun p => p.coeff 1) h
    simp at this
    exact hw.ne' this

theorem NodeOk.ne {P : ℝ[X]} {a w : ℝ} {q : List Int} {g : ℝ[X]} (hP : P ≠ 0) (hw : 0 < w) (h : NodeOk P a w q g) :
    g ≠ 0 ∧ rv q ≠ 0 ∧ ipoly q ≠ 0 := by
  have hg : g ≠ 0 := fun e => hP (by have := h.dvd; rw [e, zero_dvd_iff] at this; exact this)
  obtain ⟨κ, h1, h2⟩ := h.scale
  have : rv q ≠ 0 := by rw [h2]; exact mul_ne_zero (by simpa using h1) (onIv_ne hw hg)
  exact ⟨hg, this, rv_ne_zero.1 this⟩

/-- The division by `x`. -/
theorem nodeRoot_spec {P : ℝ[X]} (hP : P ≠ 0) (hsq : Squarefree P) {c k : Nat} {w : ℝ} (hw : 0 < w) {q : List Int} {g : ℝ[X]}
    (h : NodeOk P (tlo (c, k, false)) w q g) (isol : List (Nat × Nat × Bool)) :
    ∃ q' g' o, nodeRoot c k q isol = some (q', isol ++ o) ∧ NodeOk P (tlo (c, k, false)) w q' g' ∧ g'.eval (tlo (c, k, false)) ≠ 0 ∧
      ∀ o' rs, CaOut g' (tlo (c, k, false)) (tlo (c, k, false) + w) o' rs →
        ∃ rs', CaOut g (tlo (c, k, false)) (tlo (c, k, false) + w) (o ++ o') rs' := by
  generalize ha : tlo (c, k, false) = a at *
  obtain ⟨hg, hrq, hiq⟩ := h.ne hP hw
  obtain ⟨κ, hκ, hs⟩ := h.scale
  have h0 : (rv q).eval 0 = κ * g.eval a := by rw [hs, eval_mul, eval_C, onIv_eval, mul_zero, add_zero]
  have hz : intGcd.polyEvaluate q 0 = 0 ↔ g.eval a = 0 := by
    have := rv_eval_int q 0
    rw [Int.cast_zero, h0] at this
    constructor
    · intro e
      rw [e, Int.cast_zero] at this
      exact (mul_eq_zero.1 this).resolve_left hκ
    · intro e
      rw [e, mul_zero] at this
      exact_mod_cast this.symm
  by_cases hr : g.eval a = 0
  · have hX : X ∣ ipoly q := by
      rw [X_dvd_iff, coeff_zero_eq_eval_zero, ← intEval]; exact hz.2 hr
    obtain ⟨q', d1, d2, d3⟩ := intDiv_ok (b := intGcd.polyVar) hiq (by rw [intGcd_models.toSemi.polyVar]; exact hX)
    rw [intGcd_models.toSemi.polyVar] at d2
    obtain ⟨g', hg'⟩ := dvd_iff_isRoot.2 hr
    have hga : g'.eval a ≠ 0 := by
      intro e
      obtain ⟨k, rfl⟩ := dvd_iff_isRoot.2 e
      exact not_isUnit_X_sub_C a ((hsq.squarefree_of_dvd h.dvd) (X - C a) ⟨k, by rw [hg']; ring⟩)
    refine ⟨q', g', [(c, k, false)], ?_, ⟨d3, (Dvd.intro_left _ hg'.symm).trans h.dvd, κ * w, mul_ne_zero hκ hw.ne', ?_⟩, hga, ?_⟩
    · rw [nodeRoot, if_pos (hz.2 hr), d1]; rfl
    · have e1 : rv q = rv q' * X := by rw [rv_eq, d2, Polynomial.map_mul, ← rv_eq, map_X]
      have e2 : onIv a w (X - C a) = C w * X := by unfold onIv; simp
      rw [hg', onIv_mul, e2, e1] at hs
      apply mul_right_cancel₀ (X_ne_zero : (X : ℝ[X]) ≠ 0)
      rw [hs, C_mul]
      ring
    · intro o' rs hc
      refine ⟨a :: rs, ?_⟩
      rw [hg']
      exact CaOut.root (by linarith) ha.symm hga hc
  · refine ⟨q, g, [], ?_, h, hr, fun o' rs hc => ⟨rs, by simpa using hc⟩⟩
    rw [nodeRoot, if_neg (fun e => hr (hz.1 e)), List.append_nil]

theorem tlo_left (c k : Nat) : tlo (2 * c, k + 1, false) = tlo (c, k, false) := by
  simp only [tlo]; push_cast; rw [pow_succ]; field_simp

theorem tlo_right (c k : Nat) : tlo (2 * c + 1, k + 1, false) = tlo (c, k, false) + 1 / 2 ^ k / 2 := by
  simp only [tlo]; push_cast; rw [pow_succ]; field_simp

theorem leaf_zero {P : ℝ[X]} (hP : P ≠ 0) {a w : ℝ} (hw : 0 < w) {q : List Int} {g : ℝ[X]} (h : NodeOk P a w q g) (hga : g.eval a ≠ 0)
    (hv : signVariations (intGcd.polyCompose (polyReversed q) [1, 1]) = some 0) : CaOut g a (a + w) [] [] := by
  obtain ⟨hg0, hr0, hi0⟩ := h.ne hP hw
  obtain ⟨κ, hκ, hs⟩ := h.scale
  have ev : ∀ x, (rv q).eval x = κ * g.eval (a + w * x) := fun x => by rw [hs, eval_mul, eval_C, onIv_eval]
  have hno : ∀ x, 0 < x → x < 1 → (rv q).eval x ≠ 0 := by
    intro x hx hx1
    have h1 := signVariations_zero _ hv
    rw [reverse_compose h.red] at h1
    rcases h1 with h1 | h1
    · exact no_root_of_nonneg hr0 h1 hx hx1
    · rw [← phi_neg] at h1
      have := no_root_of_nonneg (neg_ne_zero.2 hr0) h1 hx hx1
      rw [eval_neg] at this
      exact neg_ne_zero.1 this
  refine ⟨List.Pairwise.nil, fun x => ⟨fun h => by simp at h, ?_⟩, List.Forall₂.nil, fun t ht => by simp at ht, List.Pairwise.nil⟩
  rintro ⟨h1, h2, h3⟩
  exfalso
  rcases eq_or_lt_of_le h1 with rfl | h1
  · exact hga h3
  · have hx0 : 0 < (x - a) / w := div_pos (by linarith) hw
    have hx1 : (x - a) / w < 1 := by rw [div_lt_one hw]; linarith
    have := ev ((x - a) / w)
    have e : a + w * ((x - a) / w) = x := by field_simp; ring
    rw [e, h3, mul_zero] at this
    exact hno _ hx0 hx1 this

theorem leaf_one {P : ℝ[X]} (hP : P ≠ 0) {c k : Nat} {q : List Int} {g : ℝ[X]}
    (h : NodeOk P (tlo (c, k, false)) (1 / 2 ^ k) q g) (hga : g.eval (tlo (c, k, false)) ≠ 0)
    (hv : signVariations (intGcd.polyCompose (polyReversed q) [1, 1]) = some 1) :
    ∃ r, CaOut g (tlo (c, k, false)) (tlo (c, k, false) + 1 / 2 ^ k) [(c, k, true)] [r] := by
  have hw : (0 : ℝ) < 1 / 2 ^ k := by positivity
  have elo : tlo (c, k, true) = tlo (c, k, false) := rfl
  have ehi : thi (c, k, true) = tlo (c, k, false) + 1 / 2 ^ k := by simp only [thi, tlo, if_true]; rw [add_div]
  generalize tlo (c, k, false) = a at *
  generalize (1 : ℝ) / 2 ^ k = w at *
  obtain ⟨hg0, hr0, hi0⟩ := h.ne hP hw
  obtain ⟨κ, hκ, hs⟩ := h.scale
  have ev : ∀ x, (rv q).eval x = κ * g.eval (a + w * x) := fun x => by rw [hs, eval_mul, eval_C, onIv_eval]
  obtain ⟨r, hr, hr1, hr2, hr3⟩ : ∃ r, 0 < r ∧ r < 1 ∧ (rv q).eval r = 0 ∧ ∀ x, 0 < x → x < 1 → (rv q).eval x = 0 → x = r := by
    obtain ⟨h1, h2, h3⟩ := signVariations_one _ hv
    rw [reverse_compose h.red] at h1 h2 h3
    have key : ∀ p : ℝ[X], (∃ r, 0 < r ∧ r < 1 ∧ p.eval r = 0 ∧ (∀ x, 0 < x → x < r → 0 < p.eval x) ∧ ∀ x, r < x → x < 1 → p.eval x < 0) →
        ∃ r, 0 < r ∧ r < 1 ∧ p.eval r = 0 ∧ ∀ x, 0 < x → x < 1 → p.eval x = 0 → x = r := by
      rintro p ⟨r, u1, u2, u3, u4, u5⟩
      refine ⟨r, u1, u2, u3, fun x hx hx1 hx0 => ?_⟩
      rcases lt_trichotomy x r with hlt | he | hgt
      · have := u4 x hx hlt; linarith
      · exact he
      · have := u5 x hgt hx1; linarith
    rcases h1 with h1 | h1
    · exact key _ (one_root_of_upOnce h1 h2 h3)
    · rw [← phi_neg] at h1
      obtain ⟨n2, h2⟩ := h2
      obtain ⟨n3, h3⟩ := h3
      obtain ⟨r, u1, u2, u3, u4⟩ := key _ (one_root_of_upOnce h1 ⟨n3, by rw [phi_neg, coeff_neg]; linarith⟩ ⟨n2, by rw [phi_neg, coeff_neg]; linarith⟩)
      refine ⟨r, u1, u2, by rw [eval_neg] at u3; linarith, fun x hx hx1 hx0 => u4 x hx hx1 (by rw [eval_neg, hx0, neg_zero])⟩
  have hroot : g.eval (a + w * r) = 0 := by
    have := ev r
    rw [hr2] at this
    exact (mul_eq_zero.1 this.symm).resolve_left hκ
  have huniq : ∀ x, a < x → x < a + w → g.eval x = 0 → x = a + w * r := by
    intro x hx1 hx2 hx
    have h1 := hr3 ((x - a) / w) (div_pos (by linarith) hw) (by rw [div_lt_one hw]; linarith)
      (by rw [ev, show a + w * ((x - a) / w) = x by field_simp; ring, hx, mul_zero])
    rw [← h1]; field_simp; ring
  have hb1 : a < a + w * r := by have := mul_pos hw hr; linarith
  have hb2 : a + w * r < a + w := by nlinarith
  refine ⟨a + w * r, by simp, fun x => ?_, List.Forall₂.cons ?_ List.Forall₂.nil, ?_, by simp⟩
  · rw [List.mem_singleton]
    constructor
    · rintro rfl; exact ⟨hb1.le, hb2, hroot⟩
    · rintro ⟨h1, h2, h3⟩
      rcases eq_or_lt_of_le h1 with rfl | h1
      · exact absurd h3 hga
      · exact huniq x h1 h2 h3
  · rw [TripOk, if_pos rfl, elo, ehi]
    exact ⟨hb1, hb2, huniq⟩
  · intro t ht
    rw [List.mem_singleton] at ht
    subst ht
    rw [elo, ehi]
    exact ⟨le_rfl, le_rfl⟩

/-- One node, with everything below it, is a finite computation that isolates the roots in its interval. -/
theorem caLoop_node {P : ℝ[X]} (hP : P ≠ 0) (hsq : Squarefree P) {W : ℝ}
    (hW : ∀ g, g ∣ P → ∀ a w, 0 < w → w < W → UpOnce (phi (onIv a w g)) ∨ UpOnce (-phi (onIv a w g)))
    (n : Nat) : ∀ (k c : Nat) (q : List Int) (g : ℝ[X]) (rest : List (Nat × Nat × List Int)) (isol : List (Nat × Nat × Bool)),
    1 / 2 ^ k < W * 2 ^ n → NodeOk P (tlo (c, k, false)) (1 / 2 ^ k) q g →
    ∃ out rs, caLoop ((c, k, q) :: rest) isol = caLoop rest (isol ++ out) ∧
      CaOut g (tlo (c, k, false)) (tlo (c, k, false) + 1 / 2 ^ k) out rs := by
  induction n with
  | zero =>
    intro k c q g rest isol hk h
    have hw : (0 : ℝ) < 1 / 2 ^ k := by positivity
    obtain ⟨q', g', o, e1, h', hga, hout⟩ := nodeRoot_spec hP hsq hw h isol
    obtain ⟨hg0, hr0, hi0⟩ := h'.ne hP hw
    obtain ⟨κ, hκ, hs⟩ := h'.scale
    obtain ⟨v, e2, hv⟩ := signVariations_some (intGcd.polyCompose (polyReversed q') [1, 1]) (by rw [reverse_compose h'.red]; exact phi_ne_zero hr0)
    rw [reverse_compose h'.red] at hv
    have hv1 : v ≤ 1 := hv (by rw [hs, phi_C_mul]; exact UpOnce.scale hκ (hW g' h'.dvd _ _ hw (by simpa using hk)))
    rw [caLoop]
    simp only [e1, e2, Option.bind_eq_bind, Option.bind_some]
    by_cases h1 : v = 1
    · subst h1
      rw [if_pos rfl]
      obtain ⟨r, hr⟩ := leaf_one hP h' hga e2
      obtain ⟨rs', hrs⟩ := hout _ _ hr
      exact ⟨o ++ [(c, k, true)], rs', by rw [List.append_assoc], hrs⟩
    · have h0 : v = 0 := by omega
      subst h0
      rw [if_neg (by omega), if_neg (by omega)]
      obtain ⟨rs', hrs⟩ := hout _ _ (leaf_zero hP hw h' hga e2)
      exact ⟨o ++ [], rs', by rw [List.append_nil], hrs⟩
  | succ n ih =>
    intro k c q g rest isol hk h
    have hw : (0 : ℝ) < 1 / 2 ^ k := by positivity
    obtain ⟨q', g', o, e1, h', hga, hout⟩ := nodeRoot_spec hP hsq hw h isol
    obtain ⟨hg0, hr0, hi0⟩ := h'.ne hP hw
    obtain ⟨v, e2, -⟩ := signVariations_some (intGcd.polyCompose (polyReversed q') [1, 1]) (by rw [reverse_compose h'.red]; exact phi_ne_zero hr0)
    rw [caLoop]
    simp only [e1, e2, Option.bind_eq_bind, Option.bind_some]
    by_cases h1 : v = 1
    · subst h1
      rw [if_pos rfl]
      obtain ⟨r, hr⟩ := leaf_one hP h' hga e2
      obtain ⟨rs', hrs⟩ := hout _ _ hr
      exact ⟨o ++ [(c, k, true)], rs', by rw [List.append_assoc], hrs⟩
    rw [if_neg h1]
    by_cases h2 : v > 1
    · rw [if_pos h2]
      obtain ⟨s, s1, s2, κ', s3, s4⟩ := qSmall_spec h'.red hi0
      obtain ⟨κ, hκ, hs⟩ := h'.scale
      have hhalf : (1 : ℝ) / 2 ^ (k + 1) = 1 / 2 ^ k / 2 := by rw [pow_succ]; field_simp
      have hk' : (1 : ℝ) / 2 ^ (k + 1) < W * 2 ^ n := by
        rw [pow_succ] at hk
        rw [hhalf]
        linarith
      have hsl : rv s = C (κ' * κ) * onIv (tlo (c, k, false)) (1 / 2 ^ k / 2) g' := by
        rw [s4, hs, mul_comp, C_comp, onIv_left, C_mul, mul_assoc]
      have hl : NodeOk P (tlo (2 * c, k + 1, false)) (1 / 2 ^ (k + 1)) s g' := by
        refine ⟨s2, h'.dvd, κ' * κ, mul_ne_zero s3 hκ, ?_⟩
        rw [tlo_left, hhalf, hsl]
      have hr : NodeOk P (tlo (2 * c + 1, k + 1, false)) (1 / 2 ^ (k + 1)) (intGcd.polyCompose s [1, 1]) g' := by
        refine ⟨compose_reduced _ _, h'.dvd, κ' * κ, mul_ne_zero s3 hκ, ?_⟩
        rw [tlo_right, hhalf, rv_compose, rv_one_one, hsl, mul_comp, C_comp, onIv_right]
      simp only [s1, Option.bind_some]
      obtain ⟨ol, rl, l1, l2⟩ := ih (k + 1) (2 * c) s g' ((2 * c + 1, k + 1, intGcd.polyCompose s [1, 1]) :: rest) (isol ++ o) hk' hl
      obtain ⟨or, rr, r1, r2⟩ := ih (k + 1) (2 * c + 1) _ g' rest (isol ++ o ++ ol) hk' hr
      rw [l1, r1]
      rw [tlo_left, hhalf] at l2
      rw [tlo_right, hhalf, show tlo (c, k, false) + 1 / 2 ^ k / 2 + 1 / 2 ^ k / 2 = tlo (c, k, false) + 1 / 2 ^ k by ring] at r2
      obtain ⟨rs', hrs⟩ := hout _ _ (l2.append (by linarith) (by linarith) r2)
      exact ⟨o ++ (ol ++ or), rs', by simp only [List.append_assoc], hrs⟩
    · have h0 : v = 0 := by omega
      subst h0
      rw [if_neg h2]
      obtain ⟨rs', hrs⟩ := hout _ _ (leaf_zero hP hw h' hga e2)
      exact ⟨o ++ [], rs', by rw [List.append_nil], hrs⟩

/-- The loop ends on every squarefree polynomial, and isolates its roots in `[0, 1)`. -/
theorem caLoop_spec (p : List Int) (hr : PolyReduced (id : Int → Int) p) (h0 : rv p ≠ 0) (hsq : Squarefree (rv p)) :
    ∃ out rs, caLoop [(0, 0, p)] [] = some out ∧ CaOut (rv p) 0 1 out rs := by
  obtain ⟨W, hW, hw⟩ := exists_width h0 hsq
  obtain ⟨n, hn⟩ := pow_unbounded_of_one_lt (1 / W) (one_lt_two)
  have e0 : tlo (0, 0, false) = 0 := by simp [tlo]
  obtain ⟨out, rs, e, ho⟩ := caLoop_node h0 hsq hw n 0 0 p (rv p) [] [] (by
      rw [div_lt_iff₀ hW] at hn
      rw [pow_zero, div_one]
      linarith) ⟨hr, dvd_rfl, 1, one_ne_zero, by rw [e0]; simp [onIv]⟩
  refine ⟨out, rs, ?_, ?_⟩
  · rw [e, caLoop]; rfl
  · rw [e0] at ho
    simpa using ho

end Verif.RealRoots
