import Verif.Proofs.RealAlgInv

/-!
# Real roots as real algebraic numbers
-/

namespace Verif.RealRoots

open Polynomial Verif.Rings

/-- The list of intervals is for all roots of the polynomial. -/
structure SqRoots.All (R : SqRoots) (rs : List ℝ) : Prop where
  isolates : R.Isolates rs
  all : ∀ x : ℝ, (rv R.poly).eval x = 0 ↔ x ∈ rs

theorem SqRoots.Isolates.get {R : SqRoots} {rs : List ℝ} (h : R.Isolates rs) {i : Nat} (hi : i < R.ivs.length) :
    R.ivs[i].Isolates (rv R.poly) (rs[i]'(h.isolates.length_eq ▸ hi)) :=
  (List.forall₂_iff_get.1 h.isolates).2 i hi (h.isolates.length_eq ▸ hi)

theorem ivUpper_eq (i : RootIv) : ivUpper i = i.hi := by cases i <;> rfl
theorem ivLower_eq (i : RootIv) : ivLower i = i.lo := by cases i <;> rfl

/-- The wide bounds of a root of a complete list. -/
theorem SqRoots.All.wide {R : SqRoots} {rs : List ℝ} (h : R.All rs) {i : Nat} (hi : i < R.ivs.length) {a b : ℚ} {d : Bool}
    (hiv : R.ivs[i] = .real a b d) :
    ∃ wa wb, R.wide i = some (wa, wb) ∧ Within wa wb (rs[i]'(h.isolates.isolates.length_eq ▸ hi)) ∧
      ∀ y : ℝ, (rv R.poly).eval y = 0 → Within wa wb y → y = rs[i]'(h.isolates.isolates.length_eq ▸ hi) := by
  have hl := h.isolates.isolates.length_eq
  have hI := h.isolates.get hi
  rw [hiv] at hI
  have hord := List.pairwise_iff_getElem.1 h.isolates.ordered
  have hsort := List.pairwise_iff_getElem.1 h.isolates.sorted
  set wa : Option ℚ := if i = 0 then none else R.ivs[i - 1]?.map ivUpper with hwa
  set wb : Option ℚ := if i = R.ivs.length - 1 then none else R.ivs[i + 1]?.map ivLower with hwb
  have ea : ∀ q, wa = some q → ∃ hj : i - 1 < R.ivs.length, i ≠ 0 ∧ q = R.ivs[i - 1].hi := by
    intro q hq
    rw [hwa] at hq
    split at hq
    · cases hq
    · rename_i h0
      have hj : i - 1 < R.ivs.length := by omega
      rw [List.getElem?_eq_getElem hj, Option.map_some, ivUpper_eq, Option.some_inj] at hq
      exact ⟨hj, h0, hq.symm⟩
  have eb : ∀ q, wb = some q → ∃ hj : i + 1 < R.ivs.length, q = R.ivs[i + 1].lo := by
    intro q hq
    rw [hwb] at hq
    split at hq
    · cases hq
    · rename_i h0
      have hj : i + 1 < R.ivs.length := by omega
      rw [List.getElem?_eq_getElem hj, Option.map_some, ivLower_eq, Option.some_inj] at hq
      exact ⟨hj, hq.symm⟩
  have hw : Within wa wb (rs[i]'(hl ▸ hi)) := by
    constructor
    · intro q hq
      obtain ⟨hj, h0, rfl⟩ := ea q hq
      have := hord (i - 1) i hj hi (by omega)
      rw [hiv] at this
      exact lt_of_le_of_lt (by exact_mod_cast this) hI.1
    · intro q hq
      obtain ⟨hj, rfl⟩ := eb q hq
      have := hord i (i + 1) hi hj (by omega)
      rw [hiv] at this
      exact lt_of_lt_of_le hI.2.1 (by exact_mod_cast this)
  refine ⟨wa, wb, ?_, hw, ?_⟩
  · unfold SqRoots.wide
    have := boundsLt_of_within hw
    simp only [← hwa, ← hwb, decide_eq_true hi, this, assertThat, if_true, Option.bind_eq_bind, Option.bind_some]
  · intro y hy hyw
    obtain ⟨j, hj, rfl⟩ := List.mem_iff_getElem.1 ((h.all y).1 hy)
    have hj' : j < R.ivs.length := hl ▸ hj
    rcases lt_trichotomy j i with hlt | heq | hgt
    · exfalso
      have hk : i - 1 < R.ivs.length := by omega
      have e : wa = some R.ivs[i - 1].hi := by
        rw [hwa, if_neg (by omega), List.getElem?_eq_getElem hk, Option.map_some, ivUpper_eq]
      have h1 := hyw.1 _ e
      have h2 := (h.isolates.get hk).le_hi
      have h3 : rs[j] ≤ rs[i - 1]'(hl ▸ hk) := by
        rcases Nat.lt_or_ge j (i - 1) with h4 | h4
        · exact (hsort j (i - 1) hj (hl ▸ hk) h4).le
        · have : j = i - 1 := by omega
          subst this; exact le_refl _
      linarith
    · subst heq; rfl
    · exfalso
      have hk : i + 1 < R.ivs.length := by omega
      have e : wb = some R.ivs[i + 1].lo := by
        rw [hwb, if_neg (by omega), List.getElem?_eq_getElem hk, Option.map_some, ivLower_eq]
      have h1 := hyw.2 _ e
      have h2 := (h.isolates.get hk).lo_le
      have h3 : rs[i + 1]'(hl ▸ hk) ≤ rs[j] := by
        rcases Nat.lt_or_ge (i + 1) j with h4 | h4
        · exact (hsort (i + 1) j (hl ▸ hk) hj h4).le
        · have : j = i + 1 := by omega
          subst this; exact le_refl _
      linarith

/-- The roots of a complete list for a normalised irreducible polynomial. -/
theorem SqRoots.All.rootAt {R : SqRoots} {rs : List ℝ} (h : R.All rs) (hp : PolyOk R.poly) {i : Nat} (hi : i < R.ivs.length) :
    ∃ x, R.rootAt i = some x ∧ x.Is (rs[i]'(h.isolates.isolates.length_eq ▸ hi)) := by
  have hI := h.isolates.get hi
  unfold SqRoots.rootAt
  rw [List.getElem?_eq_getElem hi]
  simp only [Option.bind_eq_bind, Option.bind_some]
  cases hiv : R.ivs[i] with
  | rational a =>
    rw [hiv] at hI
    exact ⟨.rat a, rfl, hI.1⟩
  | real a b d =>
    rw [hiv] at hI
    obtain ⟨wa, wb, e, w1, w2⟩ := h.wide hi hiv
    simp only [e, Option.bind_some]
    exact ⟨_, rfl, ⟨hp.reduced, hp.irreducible, hp.positive, hp.degree, hI, w1, w2⟩⟩

theorem mapM_range {β : Type} (f : Nat → Option β) (P : Nat → β → Prop) (n : Nat) (h : ∀ i < n, ∃ y, f i = some y ∧ P i y) :
    ∃ l, (List.range n).mapM f = some l ∧ l.length = n ∧ ∀ i (hi : i < l.length), P i l[i] := by
  have key : ∀ l : List Nat, (∀ i ∈ l, i < n) → ∃ l', l.mapM f = some l' ∧ List.Forall₂ P l l' := by
    intro l
    induction l with
    | nil => intro _; exact ⟨[], rfl, .nil⟩
    | cons x l ih =>
      intro hl
      obtain ⟨y, y1, y2⟩ := h x (hl x (by simp))
      obtain ⟨l', l1, l2⟩ := ih (fun i hi => hl i (by simp [hi]))
      exact ⟨y :: l', by rw [List.mapM_cons, y1, l1]; rfl, .cons y2 l2⟩
  obtain ⟨l, l1, l2⟩ := key (List.range n) (fun i hi => List.mem_range.1 hi)
  have hlen : l.length = n := by rw [← l2.length_eq, List.length_range]
  refine ⟨l, l1, hlen, fun i hi => ?_⟩
  have := (List.forall₂_iff_get.1 l2).2 i (by rw [List.length_range]; omega) hi
  simpa using this

theorem linear_ivs {R : SqRoots} {rs : List ℝ} (h : R.Isolates rs) (hd : (ipoly R.poly).natDegree = 1) : R.ivs.length ≤ 1 := by
  obtain ⟨q, -, hq⟩ := uniqueLinearRoot_spec hd
  by_contra hc
  have h0 : 0 < R.ivs.length := by omega
  have h1 : 1 < R.ivs.length := by omega
  have e0 := (hq _).1 (h.get h0).root
  have e1 := (hq _).1 (h.get h1).root
  have hl := h.isolates.length_eq
  have := List.pairwise_iff_getElem.1 h.sorted 0 1 (hl ▸ h0) (hl ▸ h1) (by omega)
  rw [e0, e1] at this
  exact lt_irrefl _ this

/-- `to_real_roots`. -/
theorem SqRoots.All.toRealRoots {fac : Fac} (hf : FacOk fac) {R : SqRoots} {rs : List ℝ} (h : R.All rs) (hi : Irreducible (ipoly R.poly))
    (hr : PolyReduced (id : Int → Int) R.poly) (hp : 0 < (ipoly R.poly).leadingCoeff) :
    ∃ l, R.toRealRoots fac = some l ∧ List.Forall₂ RealAlg.Is l rs := by
  have hdeg := intGcd_models.toSemi.polyDegree_some R.poly hi.ne_zero
  have hl := h.isolates.isolates.length_eq
  unfold SqRoots.toRealRoots
  simp only [isIrreducible_ok hf hi, hdeg, assertThat, if_true, Option.bind_eq_bind, Option.bind_some]
  by_cases h0 : (ipoly R.poly).natDegree = 0
  · rw [if_pos h0]
    refine ⟨[], rfl, ?_⟩
    have : rs = [] := by
      rw [List.eq_nil_iff_forall_not_mem]
      intro x hx
      have hx := (h.all x).2 hx
      have e : rv R.poly = C ((rv R.poly).coeff 0) := eq_C_of_natDegree_eq_zero (by rw [rv_natDegree, h0])
      rw [e, eval_C] at hx
      rw [hx, C_0] at e
      exact rv_ne_zero.2 hi.ne_zero e
    rw [this]
    exact .nil
  rw [if_neg h0]
  by_cases h1 : (ipoly R.poly).natDegree = 1
  · rw [if_pos h1]
    obtain ⟨q, q1, q2⟩ := uniqueLinearRoot_spec h1
    have hle := linear_ivs h.isolates h1
    have hiso := h.isolates.isolates
    match hiv : R.ivs with
    | [] =>
      rw [hiv] at hiso
      cases hiso
      exact ⟨[], rfl, .nil⟩
    | [.rational a] =>
      rw [hiv] at hiso
      cases hiso with
      | cons ha hn =>
        cases hn
        exact ⟨[.rat a], rfl, .cons ha.1 .nil⟩
    | [.real a b d] =>
      rw [hiv] at hiso
      cases hiso with
      | cons ha hn =>
        cases hn
        refine ⟨[.rat q], by simp only [q1, Option.bind_some], .cons ((q2 _).1 ha.root) .nil⟩
    | _ :: _ :: _ => rw [hiv] at hle; simp at hle
  rw [if_neg h1]
  obtain ⟨l, l1, l2, l3⟩ := mapM_range R.rootAt (fun i x => ∀ hi : i < rs.length, x.Is rs[i]) R.ivs.length (fun i hi' => by
    obtain ⟨x, x1, x2⟩ := h.rootAt ⟨hr, hi, hp, by omega⟩ hi'
    exact ⟨x, x1, fun _ => x2⟩)
  refine ⟨l, l1, List.forall₂_iff_get.2 ⟨by omega, fun i h1 h2 => ?_⟩⟩
  exact l3 i h1 h2

/-- A polynomial without roots in an interval has the same sign at both ends. -/
theorem same_sign {g : ℝ[X]} {a b : ℝ} (hab : a ≤ b) (h : ∀ x, a ≤ x → x ≤ b → g.eval x ≠ 0) : 0 < g.eval a * g.eval b := by
  have ha := h a (le_refl _) hab
  have hb := h b hab (le_refl _)
  by_contra hc
  have hneg : g.eval a * g.eval b < 0 := lt_of_le_of_ne (not_lt.1 hc) (mul_ne_zero ha hb)
  have : (0 : ℝ) ∈ g.eval '' Set.Icc a b := by
    rcases mul_neg_iff.1 hneg with ⟨h1, h2⟩ | ⟨h1, h2⟩
    · exact intermediate_value_Icc' hab g.continuous.continuousOn ⟨h2.le, h1.le⟩
    · exact intermediate_value_Icc hab g.continuous.continuousOn ⟨h1.le, h2.le⟩
  obtain ⟨x, ⟨x1, x2⟩, x3⟩ := this
  exact h x x1 x2 x3

/-- The factors of a polynomial and its roots. -/
theorem denote_dvd {pf : Factored (List Int)} {q : List Int × Nat} (hq : q ∈ pf.factors) (hpos : 0 < q.2) :
    ipoly q.1 ∣ pf.denote (polyVal (id : Int → Int)) := by
  unfold Factored.denote
  have h1 : ipoly q.1 ∣ ipoly q.1 ^ q.2 := dvd_pow_self _ hpos.ne'
  have h2 : ipoly q.1 ^ q.2 ∣ (pf.factors.map fun p => ipoly p.1 ^ p.2).prod := List.dvd_prod (List.mem_map.2 ⟨q, hq, rfl⟩)
  exact Dvd.dvd.mul_left (h1.trans h2) _

theorem rv_dvd {p q : List Int} (h : ipoly q ∣ ipoly p) : rv q ∣ rv p := by
  rw [rv_eq, rv_eq]; exact Polynomial.map_dvd _ h

theorem list_prod_root {l : List ℝ[X]} {x : ℝ} (h : l.prod.eval x = 0) : ∃ f ∈ l, f.eval x = 0 := by
  induction l with
  | nil => simp at h
  | cons f l ih =>
    rw [List.prod_cons, eval_mul, mul_eq_zero] at h
    rcases h with h | h
    · exact ⟨f, by simp, h⟩
    · obtain ⟨g, g1, g2⟩ := ih h
      exact ⟨g, by simp [g1], g2⟩

/-- Every root of a polynomial is a root of one of its irreducible factors. -/
theorem factor_root {pf : Factored (List Int)} (hv : pf.Valid intPoly (polyVal (id : Int → Int))) {p : List Int} (h0 : ipoly p ≠ 0)
    (ha : Associated (pf.denote (polyVal (id : Int → Int))) (ipoly p)) {x : ℝ} (hx : (rv p).eval x = 0) :
    ∃ q ∈ pf.factors, (rv q.1).eval x = 0 := by
  obtain ⟨k, hk⟩ := ha.symm.dvd
  have h1 : ((pf.denote (polyVal (id : Int → Int))).map (Int.castRingHom ℝ)).eval x = 0 := by
    rw [hk, Polynomial.map_mul, eval_mul, ← rv_eq, hx, zero_mul]
  unfold Factored.denote at h1
  rw [Polynomial.map_mul, eval_mul, mul_eq_zero] at h1
  rcases h1 with h1 | h1
  · exfalso
    obtain ⟨c, hc, hcu⟩ := Polynomial.isUnit_iff.1 hv.unit
    rw [← hcu, map_C, eval_C] at h1
    rcases Int.isUnit_iff.1 hc with e | e <;> rw [e] at h1 <;> simp at h1
  · rw [Polynomial.map_list_prod] at h1
    obtain ⟨f, f1, f2⟩ := list_prod_root h1
    rw [List.map_map, List.mem_map] at f1
    obtain ⟨q, q1, rfl⟩ := f1
    simp only [Function.comp, Polynomial.map_pow, eval_pow] at f2
    exact ⟨q, q1, by rw [rv_eq]; exact (pow_eq_zero_iff (hv.pos q q1).ne').1 f2⟩

theorem fav_pos {p : List Int} (h : intPoly.IsFav (polyVal (id : Int → Int)) (ipoly p)) (h0 : ipoly p ≠ 0) : 0 < (ipoly p).leadingCoeff :=
  int_isFav_pos h h0

end Verif.RealRoots
