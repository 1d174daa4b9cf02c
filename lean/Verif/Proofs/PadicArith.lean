import Verif.Proofs.PadicOps
import Verif.Proofs.RealAlgInv

/-!
# Sums, products and inverses of p-adic algebraic numbers, with the loop of PadicOps
-/

namespace Verif.Padic

open Polynomial Verif.Rings Verif.RealRoots

section
variable {p : ℕ} [hp : Fact p.Prime]

theorem forall₂_cand {dbg : Bool} {w : ℚ_[p]} {ok : ℤ → Prop} {l : List PAlg} {xs : List ℚ_[p]} (h : List.Forall₂ PAlg.Is l xs) (hpos : ∀ c ∈ l, c.Positive)
    (hc : ∀ c ∈ l, ∀ z : ℚ_[p], c.Is z → c.Safe dbg z ∧ (z = w → ∃ r, c = .root r ∧ ok r.approx.v)) :
    List.Forall₂ (CandOk dbg w ok 0) l xs := by
  induction h with
  | nil => exact .nil
  | cons h1 h2 ih =>
    refine .cons ⟨h1, hpos _ List.mem_cons_self, (hc _ List.mem_cons_self _ h1).1, fun e => ?_⟩ (ih ?_ ?_)
    · obtain ⟨r, r1, r2⟩ := (hc _ List.mem_cons_self _ h1).2 e
      exact ⟨r, r1, _, r2, rfl⟩
    · exact fun c hm => hpos c (List.mem_cons_of_mem _ hm)
    · exact fun c hm => hc c (List.mem_cons_of_mem _ hm)

/-- The search among the roots of a polynomial. -/
theorem search_spec {σ : Type} {fac : Fac} (hfac : FacOk fac) {dbg : Bool} {f : List Int} (hprim : (ipoly f).IsPrimitive) (hnd : (pv p f).roots.Nodup) {w : ℚ_[p]}
    (hw : (pv p f).eval w = 0) {ok : ℤ → Prop} (hs : SearchOk dbg fac f w ok) {gen : ℤ → σ → Option (Option IBall × σ)} (I : ℤ → σ → Prop)
    (hgen : ∀ k st, 0 ≤ k → I k st → ∃ c v R st', gen k st = some (some ⟨c, .finite v⟩, st') ∧ I (k + 1) st' ∧ Round w k c v R ∧ ∀ M, ok M → v ≤ max M k ∧ max M k ≤ R)
    (st : σ) (hI : I 0 st) :
    ∃ l c, allPadicRoots fac p f = some l ∧ candLoop dbg fac p gen 0 st l = some [c] ∧ c.Is w ∧ c.Positive := by
  obtain ⟨l, xs, h1, h2, h3, h4⟩ := allPadicRoots_spec (p := p) hfac hprim
  have hpos : ∀ c ∈ l, c.Positive := by
    intro c hc
    cases c with
    | rat _ => trivial
    | root r => exact h4 r hc
  have hwx : w ∈ xs := by
    have : w ∈ (pv p f).roots := (mem_roots ((Polynomial.map_ne_zero_iff (RingHom.injective_int _)).2 hprim.ne_zero)).2 hw
    rw [← h3] at this
    exact this
  have hxnd : xs.Nodup := by rw [← h3] at hnd; exact hnd
  refine ⟨l, ?_⟩
  rcases hs l h1 with hl | hc
  · cases h2 with
    | nil => simp at hwx
    | @cons a w' l xs k1 k2 =>
      cases k2 with
      | nil =>
        rw [List.mem_singleton] at hwx
        subst hwx
        exact ⟨a, h1, by rw [candLoop]; simp, k1, hpos _ List.mem_cons_self⟩
      | cons _ _ => simp at hl
  · obtain ⟨K, hK⟩ := exists_sep w xs
    have hcand := forall₂_cand h2 hpos hc
    obtain ⟨c, c1, c2, c3⟩ := candLoop_spec hfac (K := max K 0) I hgen _ 0 st l xs rfl le_rfl hI hcand hxnd hwx
      (fun z hz hne => (zpow_le_zpow_right₀ p_one.le (by omega)).trans_lt (hK z hz hne)) (by intro h; omega)
    exact ⟨c, h1, c1, c2, c3⟩

theorem valu_min (a b : ℤ) : (Valu.finite a).min (.finite b) = .finite (min a b) := by
  unfold Valu.min Valu.lt Valu.cmp
  by_cases h : b < a
  · rw [if_pos (by rw [beq_iff_eq, compare_lt_iff_lt]; exact h), min_eq_right h.le]
  · rw [if_neg (by rw [beq_iff_eq, compare_lt_iff_lt]; exact h), min_eq_left (by omega)]

theorem single_some (c : PAlg) : single [c] = some c := rfl

/-- addition -/
theorem PRoot.add_spec {fac : Fac} (hfac : FacOk fac) (dbg : Bool) {sumPoly : List Int → List Int → Option (List Int)} (hsum : OpPolyExact (· + ·) sumPoly)
    {r s : PRoot} {x y : ℚ_[p]} (hx : r.Is x) (hy : s.Is y) (hrs : (PAlg.root r).Safe dbg x) (hss : (PAlg.root s).Safe dbg y)
    (hs : ∀ f, sumPoly r.poly s.poly = some f → SearchOk dbg fac f (x + y) fun M => max M 0 = max (min r.approx.v s.approx.v) 0) :
    ∃ z, r.add dbg fac p sumPoly s = some z ∧ z.Is (x + y) ∧ z.Positive := by
  obtain ⟨f, f1, f2, f3, f4⟩ := sumPoly_root (p := p) hsum hx.irreducible.ne_zero hy.irreducible.ne_zero hx.isolates.root hy.isolates.root
  have hmono : ∀ {i j : ℤ}, i ≤ j → (p : ℝ) ^ (-j) ≤ (p : ℝ) ^ (-i) := fun h => zpow_le_zpow_right₀ p_one.le (by omega)
  let I : ℤ → PRoot × PRoot → Prop := (fun k st => st.1.Is x ∧ st.2.Is y ∧ st.1.poly = r.poly ∧ st.2.poly = s.poly ∧ max st.1.approx.v k = max r.approx.v k ∧ max st.2.approx.v k = max s.approx.v k)
  have hgen : ∀ k st, 0 ≤ k → I k st → ∃ c v R st', sumBall dbg fac p k st = some (some ⟨c, .finite v⟩, st') ∧ I (k + 1) st' ∧ Round (x + y) k c v R ∧
      ∀ M, max M 0 = max (min r.approx.v s.approx.v) 0 → v ≤ max M k ∧ max M k ≤ R := by
    rintro k ⟨a, b⟩ hk ⟨i1, i2, i3, i4, i5, i6⟩
    obtain ⟨a', a1, a2, a3, a4⟩ := PRoot.refine_spec hfac dbg k _ a rfl i1 (by intro h; rw [i3]; exact hrs h)
    obtain ⟨b', b1, b2, b3, b4⟩ := PRoot.refine_spec hfac dbg k _ b rfl i2 (by intro h; rw [i4]; exact hss h)
    simp only at i3 i4 i5 i6
    refine ⟨a'.approx.a + b'.approx.a, min a'.approx.v b'.approx.v, min a'.approx.v b'.approx.v, (a', b'), ?_, ⟨a3, b3, a2.trans i3, b2.trans i4, by simp only; omega, by simp only; omega⟩,
      ⟨?_, le_rfl, by omega⟩, fun M hM => by omega⟩
    · simp only [sumBall, a1, b1, Option.bind_eq_bind, Option.bind_some, PRoot.ball, valu_min]
    · have h1 := add_le ((show ‖x - (a'.approx.a : ℚ_[p])‖ ≤ _ from a3.isolates.mem).trans (hmono (min_le_left _ b'.approx.v)))
        ((show ‖y - (b'.approx.a : ℚ_[p])‖ ≤ _ from b3.isolates.mem).trans (hmono (min_le_right a'.approx.v _)))
      rw [Rat.cast_add, add_sub_add_comm]
      exact h1
  obtain ⟨l, c, c1, c2, c3, c4⟩ := search_spec hfac f2 f3 f4 (hs f f1) I hgen (r, s) ⟨hx, hy, rfl, rfl, rfl, rfl⟩
  exact ⟨c, by simp only [PRoot.add, f1, c1, c2, Option.bind_eq_bind, Option.bind_some, single_some], c3, c4⟩

/-- a ball that isolates a root other than zero has a centre of the same absolute value -/
theorem PRoot.Is.center_norm {fac : Fac} (hfac : FacOk fac) {r : PRoot} {x : ℚ_[p]} (h : r.Is x) : ‖(r.approx.a : ℚ_[p])‖ = ‖x‖ := by
  obtain ⟨bp, g, z, h1, -, -, -, -, h2, h3, -, -⟩ := refine_setup hfac h.irreducible h.degree h.rootBall
  obtain ⟨w, w1, w2⟩ := ratVal_norm (p := p) r.approx.a
  rw [h1, Option.some_inj] at w1
  rw [← w2, ← w1, h2, norm_mul, norm_p_zpow, PadicInt.padic_norm_e_of_padicInt, h3, mul_one]
  rfl

/-- multiplication of units -/
theorem PRoot.mul_spec {fac : Fac} (hfac : FacOk fac) (dbg : Bool) {prodPoly : List Int → List Int → Option (List Int)} (hprod : OpPolyExact (· * ·) prodPoly)
    {r s : PRoot} {x y : ℚ_[p]} (hx : r.Is x) (hy : s.Is y) (hx1 : ‖x‖ = 1) (hy1 : ‖y‖ = 1)
    (hs : ∀ f, prodPoly r.poly s.poly = some f → SearchOk dbg fac f (x * y) fun M => max M 0 ≤ max (min r.approx.v s.approx.v) 0) :
    ∃ z, r.mul dbg fac p prodPoly s = some z ∧ z.Is (x * y) ∧ z.Positive := by
  obtain ⟨f, f1, f2, f3, f4⟩ := prodPoly_root (p := p) hprod hx.irreducible.ne_zero hy.irreducible.ne_zero hx.isolates.root hy.isolates.root
  have hmono : ∀ {i j : ℤ}, i ≤ j → (p : ℝ) ^ (-j) ≤ (p : ℝ) ^ (-i) := fun h => zpow_le_zpow_right₀ p_one.le (by omega)
  let I : ℤ → PRoot × PRoot → Prop := (fun k st => st.1.Is x ∧ st.2.Is y ∧ st.1.poly = r.poly ∧ st.2.poly = s.poly ∧ max st.1.approx.v k = max r.approx.v k ∧ max st.2.approx.v k = max s.approx.v k)
  have hgen : ∀ k st, 0 ≤ k → I k st → ∃ c v R st', prodBall dbg fac p k st = some (some ⟨c, .finite v⟩, st') ∧ I (k + 1) st' ∧ Round (x * y) k c v R ∧
      ∀ M, max M 0 ≤ max (min r.approx.v s.approx.v) 0 → v ≤ max M k ∧ max M k ≤ R := by
    rintro k ⟨a, b⟩ hk ⟨i1, i2, i3, i4, i5, i6⟩
    obtain ⟨a', a1, a2, a3, a4⟩ := PRoot.refine_spec hfac dbg k _ a rfl i1 (fun _ => deriv_integral _ hx1.le)
    obtain ⟨b', b1, b2, b3, b4⟩ := PRoot.refine_spec hfac dbg k _ b rfl i2 (fun _ => deriv_integral _ hy1.le)
    simp only at i3 i4 i5 i6
    have va : ratVal p a'.approx.a = some (.finite 0) := ratVal_of_norm (by rw [a3.center_norm hfac, hx1]; simp)
    have vb : ratVal p b'.approx.a = some (.finite 0) := ratVal_of_norm (by rw [b3.center_norm hfac, hy1]; simp)
    refine ⟨a'.approx.a * b'.approx.a, 0, min a'.approx.v b'.approx.v, (a', b'), ?_, ⟨a3, b3, a2.trans i3, b2.trans i4, by simp only; omega, by simp only; omega⟩,
      ⟨?_, by omega, by omega⟩, fun M hM => by omega⟩
    · simp only [prodBall, a1, b1, Option.bind_eq_bind, Option.bind_some, PRoot.ball, va, vb, Valu.mul, zero_mul, Valu.min, Valu.lt, Valu.cmp, ite_self]
    · have h1 : ‖x * (y - (b'.approx.a : ℚ_[p]))‖ ≤ (p : ℝ) ^ (-(min a'.approx.v b'.approx.v)) := by
        rw [norm_mul, hx1, one_mul]
        exact (show ‖y - (b'.approx.a : ℚ_[p])‖ ≤ _ from b3.isolates.mem).trans (hmono (min_le_right a'.approx.v _))
      have h2 : ‖(x - (a'.approx.a : ℚ_[p])) * (b'.approx.a : ℚ_[p])‖ ≤ (p : ℝ) ^ (-(min a'.approx.v b'.approx.v)) := by
        rw [norm_mul, b3.center_norm hfac, hy1, mul_one]
        exact (show ‖x - (a'.approx.a : ℚ_[p])‖ ≤ _ from a3.isolates.mem).trans (hmono (min_le_left _ b'.approx.v))
      have := add_le h1 h2
      rw [Rat.cast_mul]
      convert this using 2
      ring
  obtain ⟨l, c, c1, c2, c3, c4⟩ := search_spec hfac f2 f3 f4 (hs f f1) I hgen (r, s) ⟨hx, hy, rfl, rfl, rfl, rfl⟩
  exact ⟨c, by simp only [PRoot.mul, f1, c1, c2, Option.bind_eq_bind, Option.bind_some, single_some], c3, c4⟩

/-- The polynomial of the inverse. -/
theorem invPoly_spec {r : PRoot} {x : ℚ_[p]} (h : r.Is x) : ∃ u g, intPoly.factorFavAssoc r.poly.reverse = some (u, g) ∧ Irreducible (ipoly g) ∧
    2 ≤ (ipoly g).natDegree ∧ (pv p g).eval x⁻¹ = 0 := by
  have hx0 := zero_not_root h.irreducible h.degree h.isolates.root
  have h0 : (ipoly r.poly).coeff 0 ≠ 0 := by
    intro e
    have hX : X ∣ ipoly r.poly := X_dvd_iff.2 e
    have := (h.irreducible.dvd_iff.1 hX)
    rcases this with hu | ha
    · exact not_isUnit_X hu
    · have h1 := natDegree_eq_of_degree_eq (degree_eq_degree_of_associated ha)
      rw [natDegree_X] at h1
      have := h.degree
      omega
  have hi : Irreducible (ipoly r.poly.reverse) := by rw [ipoly_reverse h.reduced]; exact irr_reverse h.irreducible h0
  have hd : (ipoly r.poly.reverse).natDegree = (ipoly r.poly).natDegree := by rw [ipoly_reverse h.reduced, reverse_natDegree' h0]
  obtain ⟨u, g, g1, g2, g3, g4, -⟩ := intFavAssoc_spec hi.ne_zero
  have hu : u = 1 ∨ u = -1 := by rw [g2]; split <;> simp
  have hcu : IsUnit (C u : ℤ[X]) := isUnit_C.2 (Int.isUnit_iff.2 hu)
  refine ⟨_, g, g1, by rw [g3] at hi; exact (irreducible_isUnit_mul hcu).1 hi, ?_, ?_⟩
  · rw [g3, natDegree_C_mul (by rcases hu with e | e <;> rw [e] <;> simp)] at hd
    rw [hd]; exact h.degree
  · haveI : Invertible x := invertibleOfNonzero hx0
    have h1 := eval₂_reverse_mul_pow (Int.castRingHom ℚ_[p]) x (ipoly r.poly)
    rw [← eval_map, ← eval_map, ← ipoly_reverse h.reduced, invOf_eq_inv] at h1
    have h2 : eval x ((ipoly r.poly).map (Int.castRingHom ℚ_[p])) = 0 := h.isolates.root
    rw [h2] at h1
    have h3 := (mul_eq_zero.1 h1).resolve_right (pow_ne_zero _ hx0)
    rw [g3, Polynomial.map_mul, map_C, eval_mul, eval_C] at h3
    refine (mul_eq_zero.1 h3).resolve_left ?_
    rcases hu with e | e <;> rw [e] <;> simp

/-- inverse of a unit -/
theorem PRoot.inv_spec {fac : Fac} (hfac : FacOk fac) (dbg : Bool) {r : PRoot} {x : ℚ_[p]} (hx : r.Is x) (hx1 : ‖x‖ = 1)
    (hs : ∀ u f, intPoly.factorFavAssoc r.poly.reverse = some (u, f) → SearchOk dbg fac f x⁻¹ fun M => max M 0 = max r.approx.v 0) :
    ∃ z, r.inv dbg fac p = some z ∧ z.Is x⁻¹ ∧ z.Positive := by
  obtain ⟨u, f, f1, f2, f3, f4⟩ := invPoly_spec hx
  have hx0 : x ≠ 0 := by intro e; rw [e, norm_zero] at hx1; exact zero_ne_one hx1
  let I : ℤ → PRoot → Prop := fun k st => st.Is x ∧ st.poly = r.poly ∧ max st.approx.v k = max r.approx.v k
  have hgen : ∀ k st, 0 ≤ k → I k st → ∃ c v R st', invBall dbg fac p k st = some (some ⟨c, .finite v⟩, st') ∧ I (k + 1) st' ∧ Round x⁻¹ k c v R ∧
      ∀ M, max M 0 = max r.approx.v 0 → v ≤ max M k ∧ max M k ≤ R := by
    rintro k a hk ⟨i1, i2, i3⟩
    obtain ⟨a', a1, a2, a3, a4⟩ := PRoot.refine_spec hfac dbg k _ a rfl i1 (fun _ => deriv_integral _ hx1.le)
    have hn : ‖(a'.approx.a : ℚ_[p])‖ = 1 := by rw [a3.center_norm hfac, hx1]
    have va : ratVal p a'.approx.a = some (.finite 0) := ratVal_of_norm (by rw [hn]; simp)
    have hne : a'.approx.a ≠ 0 := by intro e; rw [e, Rat.cast_zero, norm_zero] at hn; exact zero_ne_one hn
    have hne' : (a'.approx.a : ℚ_[p]) ≠ 0 := by exact_mod_cast hne
    refine ⟨1 / a'.approx.a, a'.approx.v, a'.approx.v, a', ?_, ⟨a3, a2.trans i2, by omega⟩, ⟨?_, le_rfl, by omega⟩, fun M hM => by omega⟩
    · have h1 : (Valu.finite a'.approx.v).min (.finite 0) = .finite 0 := by rw [valu_min, min_eq_right (by omega)]
      simp only [invBall, a1, Option.bind_eq_bind, Option.bind_some, PRoot.ball, if_neg hne, va, h1, Valu.sub, sub_zero]
    · have : x⁻¹ - ((1 / a'.approx.a : ℚ) : ℚ_[p]) = -((x - (a'.approx.a : ℚ_[p])) * (x⁻¹ * (a'.approx.a : ℚ_[p])⁻¹)) := by
        push_cast
        field_simp
        ring
      rw [this, norm_neg, norm_mul, norm_mul, norm_inv, norm_inv, hx1, hn, inv_one, mul_one, mul_one]
      exact a3.isolates.mem
  obtain ⟨l, c, c1, c2, c3, c4⟩ := search_spec hfac (f2.isPrimitive (by omega)) (pv_nodup f2 (by omega)) f4 (hs u f f1) I hgen r ⟨hx, rfl, rfl⟩
  exact ⟨c, by simp only [PRoot.inv, f1, isIrreducible_ok hfac f2, assertThat, if_true, c1, c2, Option.bind_eq_bind, Option.bind_some, single_some], c3, c4⟩

end

end Verif.Padic
