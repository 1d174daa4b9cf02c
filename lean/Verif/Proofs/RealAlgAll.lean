import Verif.Proofs.RealAlgNth

/-!
# The real roots of a polynomial, with multiplicity
-/

namespace Verif.RealRoots

open Polynomial Verif.Rings

theorem RealAlg.Is.locates {x : RealAlg} {r : ℝ} (h : x.Is r) : x.Locates r := by
  cases x with
  | rat a => exact h
  | real x =>
    have hx : x.Is r := h
    exact ⟨hx.reduced, hx.irreducible, hx.positive, hx.degree, hx.tight, hx.within⟩

/-- The wide bounds of a root of any list of isolating intervals. -/
theorem SqRoots.Isolates.wide {R : SqRoots} {rs : List ℝ} (h : R.Isolates rs) {i : Nat} (hi : i < R.ivs.length) {a b : ℚ} {d : Bool}
    (hiv : R.ivs[i] = .real a b d) :
    ∃ wa wb, R.wide i = some (wa, wb) ∧ Within wa wb (rs[i]'(h.isolates.length_eq ▸ hi)) := by
  have hl := h.isolates.length_eq
  have hI := h.get hi
  rw [hiv] at hI
  have hord := List.pairwise_iff_getElem.1 h.ordered
  set wa : Option ℚ := if i = 0 then none else R.ivs[i - 1]?.map ivUpper with hwa
  set wb : Option ℚ := if i = R.ivs.length - 1 then none else R.ivs[i + 1]?.map ivLower with hwb
  have hw : Within wa wb (rs[i]'(hl ▸ hi)) := by
    constructor
    · intro q hq
      rw [hwa] at hq
      split at hq
      · cases hq
      · rename_i h0
        have hj : i - 1 < R.ivs.length := by omega
        rw [List.getElem?_eq_getElem hj, Option.map_some, ivUpper_eq, Option.some_inj] at hq
        have := hord (i - 1) i hj hi (by omega)
        rw [hiv] at this
        subst hq
        exact lt_of_le_of_lt (by exact_mod_cast this) hI.1
    · intro q hq
      rw [hwb] at hq
      split at hq
      · cases hq
      · rename_i h0
        have hj : i + 1 < R.ivs.length := by omega
        rw [List.getElem?_eq_getElem hj, Option.map_some, ivLower_eq, Option.some_inj] at hq
        have := hord i (i + 1) hi hj (by omega)
        rw [hiv] at this
        subst hq
        exact lt_of_lt_of_le hI.2.1 (by exact_mod_cast this)
  refine ⟨wa, wb, ?_, hw⟩
  unfold SqRoots.wide
  have := boundsLt_of_within hw
  simp only [← hwa, ← hwb, decide_eq_true hi, this, assertThat, if_true, Option.bind_eq_bind, Option.bind_some]

theorem SqRoots.Isolates.rootAt {R : SqRoots} {rs : List ℝ} (h : R.Isolates rs) (hp : PolyOk R.poly) {i : Nat} (hi : i < R.ivs.length) :
    ∃ x, R.rootAt i = some x ∧ x.Locates (rs[i]'(h.isolates.length_eq ▸ hi)) := by
  have hI := h.get hi
  unfold SqRoots.rootAt
  rw [List.getElem?_eq_getElem hi]
  simp only [Option.bind_eq_bind, Option.bind_some]
  cases hiv : R.ivs[i] with
  | rational a =>
    rw [hiv] at hI
    exact ⟨.rat a, rfl, hI.1⟩
  | real a b d =>
    rw [hiv] at hI
    obtain ⟨wa, wb, e, w1⟩ := h.wide hi hiv
    simp only [e, Option.bind_some]
    exact ⟨_, rfl, ⟨hp.reduced, hp.irreducible, hp.positive, hp.degree, hI, w1⟩⟩

/-- `to_real_roots` for a list that need not have all roots. -/
theorem SqRoots.Isolates.toRealRoots {fac : Fac} (hf : FacOk fac) {R : SqRoots} {rs : List ℝ} (h : R.Isolates rs) (hi : Irreducible (ipoly R.poly))
    (hr : PolyReduced (id : Int → Int) R.poly) (hp : 0 < (ipoly R.poly).leadingCoeff) :
    ∃ l, R.toRealRoots fac = some l ∧ List.Forall₂ RealAlg.Locates l rs := by
  have hdeg := intGcd_models.toSemi.polyDegree_some R.poly hi.ne_zero
  have hl := h.isolates.length_eq
  unfold SqRoots.toRealRoots
  simp only [isIrreducible_ok hf hi, hdeg, assertThat, if_true, Option.bind_eq_bind, Option.bind_some]
  by_cases h0 : (ipoly R.poly).natDegree = 0
  · rw [if_pos h0]
    refine ⟨[], rfl, ?_⟩
    have : rs = [] := by
      rw [List.eq_nil_iff_forall_not_mem]
      intro x hx
      obtain ⟨i, hi', rfl⟩ := List.mem_iff_getElem.1 hx
      have hx := (h.get (hl ▸ hi')).root
      generalize rs[i] = y at hx
      have e : rv R.poly = C ((rv R.poly).coeff 0) := eq_C_of_natDegree_eq_zero (by rw [rv_natDegree, h0])
      rw [e, eval_C] at hx
      rw [hx, C_0] at e
      exact rv_ne_zero.2 hi.ne_zero e
    rw [this]
    exact .nil
  rw [if_neg h0]
  by_cases h1 : (ipoly R.poly).natDegree = 1
  · rw [if_pos h1]
    obtain ⟨q, q1, q2⟩ := uniqueLinearRoot_spec h1
    have hle := linear_ivs h h1
    have hiso := h.isolates
    match hiv : R.ivs with
    | [] =>
      rw [hiv] at hiso
      cases hiso
      exact ⟨[], rfl, .nil⟩
    | [.rational a] =>
      rw [hiv] at hiso
      cases hiso with
      | cons ha hn =>
        cases hn
        exact ⟨[.rat a], rfl, .cons ha.1 .nil⟩
    | [.real a b d] =>
      rw [hiv] at hiso
      cases hiso with
      | cons ha hn =>
        cases hn
        refine ⟨[.rat q], by simp only [q1, Option.bind_some], .cons ((q2 _).1 ha.root) .nil⟩
    | _ :: _ :: _ => rw [hiv] at hle; simp at hle
  rw [if_neg h1]
  obtain ⟨l, l1, l2, l3⟩ := mapM_range R.rootAt (fun i x => ∀ hi : i < rs.length, x.Locates rs[i]) R.ivs.length (fun i hi' => by
    obtain ⟨x, x1, x2⟩ := h.rootAt ⟨hr, hi, hp, by omega⟩ hi'
    exact ⟨x, x1, fun _ => x2⟩)
  refine ⟨l, l1, List.forall₂_iff_get.2 ⟨by omega, fun i h1 h2 => ?_⟩⟩
  exact l3 i h1 h2

/-- The numbers a list of real algebraic numbers stands for; exactly, if the range is everything. -/
def Stands (oa ob : Option ℚ) (l : List RealAlg) (rs : List ℝ) : Prop :=
  List.Forall₂ RealAlg.Locates l rs ∧ (oa = none → ob = none → List.Forall₂ RealAlg.Is l rs)

theorem rootsIrreducible_spec {fac : Fac} (hf : FacOk fac) {p : List Int} (hp : FactorOk p) {oa ob : Option ℚ} (ia ib : Bool) (hr : RangeOk p oa ob) :
    ∃ l rs, rootsIrreducible fac p oa ob ia ib = some l ∧ Stands oa ob l rs ∧ rs.Pairwise (· < ·) ∧
      ∀ x, x ∈ rs ↔ InRange oa ob ia ib x ∧ (rv p).eval x = 0 := by
  obtain ⟨R, rs, r1, r2, r3, r4⟩ := rootsSquarefree_spec (rv_ne_zero.2 hp.irreducible.ne_zero) (irr_squarefree_real hp.irreducible) ia ib hr
  subst r2
  obtain ⟨l, l1, l2⟩ := r3.toRealRoots hf hp.irreducible hp.reduced hp.positive
  refine ⟨l, rs, ?_, ⟨l2, ?_⟩, r3.sorted, r4⟩
  · unfold rootsIrreducible
    simp only [isIrreducible_ok hf hp.irreducible, assertThat, if_true, Option.bind_eq_bind, Option.bind_some, r1, l1]
  · rintro rfl rfl
    have hall : R.All rs := ⟨r3, fun x => by rw [r4]; simp [InRange]⟩
    obtain ⟨l', l1', l2'⟩ := hall.toRealRoots hf hp.irreducible hp.reduced hp.positive
    rw [l1] at l1'
    cases l1'
    exact l2'

theorem forall₂_repeat {α β : Type} {P : α → β → Prop} {l : List α} {m : List β} (h : List.Forall₂ P l m) (k : Nat) :
    List.Forall₂ P (l.flatMap fun r => List.replicate k r) (m.flatMap fun r => List.replicate k r) := by
  induction h with
  | nil => exact .nil
  | cons h1 _ ih =>
    rw [List.flatMap_cons, List.flatMap_cons]
    refine List.rel_append ?_ ih
    clear ih
    induction k with
    | zero => exact .nil
    | succ k ih => exact .cons h1 ih

theorem repeat_multiset (m : List ℝ) (k : Nat) : ((m.flatMap fun r => List.replicate k r : List ℝ) : Multiset ℝ) = k • (m : Multiset ℝ) := by
  induction m with
  | nil => simp
  | cons x m ih =>
    rw [List.flatMap_cons, ← Multiset.coe_add, ih, ← Multiset.cons_coe, ← Multiset.singleton_add, nsmul_add, Multiset.nsmul_singleton]
    rfl

open Classical in
theorem factorRoots_spec {fac : Fac} (hf : FacOk fac) {fk : List Int × Nat} (hp : FactorOk fk.1) {oa ob : Option ℚ} (ia ib : Bool)
    (hr : RangeOk fk.1 oa ob) :
    ∃ l rs, factorRoots fac oa ob ia ib fk = some l ∧ Stands oa ob l rs ∧
      (rs : Multiset ℝ) = ((rv fk.1 ^ fk.2).roots.filter (InRange oa ob ia ib)) := by
  obtain ⟨l, rs, e, h1, h2, h3⟩ := rootsIrreducible_spec hf hp ia ib hr
  refine ⟨_, _, by rw [factorRoots, e, Option.map_some], ⟨forall₂_repeat h1.1 fk.2, fun a b => forall₂_repeat (h1.2 a b) fk.2⟩, ?_⟩
  rw [repeat_multiset, roots_pow, Multiset.filter_nsmul]
  congr 1
  have h0 := rv_ne_zero.2 hp.irreducible.ne_zero
  have hn : (rv fk.1).roots.Nodup := nodup_roots (PerfectField.separable_iff_squarefree.2 (irr_squarefree_real hp.irreducible))
  rw [Multiset.Nodup.ext (Multiset.coe_nodup.2 (h2.imp fun h => ne_of_lt h)) (hn.filter _)]
  intro x
  rw [Multiset.mem_filter, mem_roots h0, Multiset.mem_coe, h3]
  exact and_comm

theorem factorRoots_range {fac : Fac} {fk : List Int × Nat} {oa ob : Option ℚ} {ia ib : Bool} {l : List RealAlg}
    (h : factorRoots fac oa ob ia ib fk = some l) : RangeOk fk.1 oa ob := by
  unfold factorRoots rootsIrreducible at h
  simp only [Option.map_eq_some_iff, Option.bind_eq_bind, Option.bind_eq_some_iff] at h
  obtain ⟨-, ⟨-, -, -, -, R, hR, -⟩, -⟩ := h
  exact (rootsSquarefree_some hR).2.2

theorem prod_roots {l : List (List Int × Nat)} (h : ∀ q ∈ l, rv q.1 ≠ 0) : (l.map fun q => rv q.1 ^ q.2).prod ≠ 0 := by
  intro e
  obtain ⟨q, q1, q2⟩ := List.mem_map.1 (List.prod_eq_zero_iff.1 e)
  exact pow_ne_zero _ (h q q1) q2

open Classical in
theorem mapM_factorRoots {fac : Fac} (hf : FacOk fac) {oa ob : Option ℚ} (ia ib : Bool) (l : List (List Int × Nat)) (hl : ∀ q ∈ l, FactorOk q.1)
    (hr : ∀ q ∈ l, RangeOk q.1 oa ob) :
    ∃ ls rs, l.mapM (factorRoots fac oa ob ia ib) = some ls ∧ Stands oa ob ls.flatten rs ∧
      (rs : Multiset ℝ) = ((l.map fun q => rv q.1 ^ q.2).prod.roots.filter (InRange oa ob ia ib)) := by
  induction l with
  | nil => exact ⟨[], [], rfl, ⟨.nil, fun _ _ => .nil⟩, by simp⟩
  | cons q l ih =>
    obtain ⟨ls, rs, e, e1, e2⟩ := ih (fun z hz => hl z (by simp [hz])) (fun z hz => hr z (by simp [hz]))
    obtain ⟨m, ms, f, f1, f2⟩ := factorRoots_spec hf (hl q (by simp)) ia ib (hr q (by simp))
    refine ⟨m :: ls, ms ++ rs, by rw [List.mapM_cons, f, e]; rfl, ⟨?_, fun a b => ?_⟩, ?_⟩
    · rw [List.flatten_cons]; exact List.rel_append f1.1 e1.1
    · rw [List.flatten_cons]; exact List.rel_append (f1.2 a b) (e1.2 a b)
    · have h0 : ∀ z ∈ q :: l, rv z.1 ≠ 0 := fun z hz => rv_ne_zero.2 (hl z hz).irreducible.ne_zero
      have := prod_roots h0
      rw [List.map_cons, List.prod_cons] at this
      rw [← Multiset.coe_add, e2, f2, List.map_cons, List.prod_cons, roots_mul this, Multiset.filter_add]

theorem rv_denote_roots {pf : Factored (List Int)} (hv : pf.Valid intPoly (polyVal (id : Int → Int))) {p : List Int}
    (ha : Associated (pf.denote (polyVal (id : Int → Int))) (ipoly p)) : (rv p).roots = (pf.factors.map fun q => rv q.1 ^ q.2).prod.roots := by
  obtain ⟨u, hu⟩ := ha
  have hunit : ∀ v : ℤ[X], IsUnit v → ∃ c : ℝ, c ≠ 0 ∧ v.map (Int.castRingHom ℝ) = C c := by
    intro v hv
    obtain ⟨c, hc, hcu⟩ := Polynomial.isUnit_iff.1 hv
    exact ⟨c, by rcases Int.isUnit_iff.1 hc with e | e <;> rw [e] <;> norm_num, by rw [← hcu, map_C]; rfl⟩
  obtain ⟨c, c0, hc⟩ := hunit _ u.isUnit
  obtain ⟨d, d0, hd⟩ := hunit _ hv.unit
  have : rv p = C (c * d) * (pf.factors.map fun q => rv q.1 ^ q.2).prod := by
    rw [rv_eq, ← hu]
    unfold Factored.denote
    rw [Polynomial.map_mul, Polynomial.map_mul, hc, hd, Polynomial.map_list_prod, List.map_map, C_mul]
    have : (Polynomial.map (Int.castRingHom ℝ) ∘ fun q : List Int × Nat => polyVal (id : Int → Int) q.1 ^ q.2) = fun q => rv q.1 ^ q.2 := by
      funext q
      rw [Function.comp_apply, Polynomial.map_pow, rv_eq]
    rw [this]; ring
  rw [this, roots_C_mul _ (mul_ne_zero c0 d0)]

theorem mapM_mem {α β : Type} {f : α → Option β} {l : List α} {m : List β} (h : l.mapM f = some m) {x : α} (hx : x ∈ l) : ∃ y, y ∈ m ∧ f x = some y := by
  induction l generalizing m with
  | nil => simp at hx
  | cons z l ih =>
    rw [List.mapM_cons] at h
    simp only [Option.bind_eq_bind, Option.bind_eq_some_iff] at h
    obtain ⟨y, y1, m', m1, m2⟩ := h
    cases m2
    rcases List.mem_cons.1 hx with rfl | hx
    · exact ⟨y, by simp, y1⟩
    · obtain ⟨w, w1, w2⟩ := ih m1 hx
      exact ⟨w, by simp [w1], w2⟩

open Classical in
/-- `real_roots`. -/
theorem realRoots_spec {fac : Fac} (hf : FacOk fac) {p : List Int} (h0 : rv p ≠ 0) (oa ob : Option ℚ) (ia ib : Bool) :
    (∀ l, realRoots fac p oa ob ia ib = some l → ∃ rs, Stands oa ob l rs ∧ (rs : Multiset ℝ) = (rv p).roots.filter (InRange oa ob ia ib)) ∧
    ((∀ q, RangeOk q oa ob) → ∃ l, realRoots fac p oa ob ia ib = some l) := by
  obtain ⟨pf, e, hv, ha, hfac⟩ := hf.spec (rv_ne_zero.1 h0)
  have hz : intGcd.toSemiRingOps.poly.isZero p = false := by
    by_contra hc
    exact rv_ne_zero.1 h0 ((intGcd_models.toSemi.poly.isZero p).1 (by simpa using hc))
  have hl := fun q hq => (hfac q hq).1
  constructor
  · intro l h
    unfold realRoots at h
    simp only [hz, Bool.not_false, assertThat, if_true, e, Option.bind_eq_bind, Option.bind_some, Option.bind_eq_some_iff] at h
    obtain ⟨ls, h1, h2⟩ := h
    cases h2
    have hr : ∀ q ∈ pf.factors, RangeOk q.1 oa ob := by
      intro q hq
      obtain ⟨m, -, hm⟩ := mapM_mem h1 hq
      exact factorRoots_range hm
    obtain ⟨ls', rs, e1, e2, e3⟩ := mapM_factorRoots hf ia ib pf.factors hl hr
    rw [h1] at e1
    cases e1
    exact ⟨rs, e2, by rw [rv_denote_roots hv ha, e3]⟩
  · intro hr
    obtain ⟨ls', rs, e1, e2, e3⟩ := mapM_factorRoots hf ia ib pf.factors hl (fun q _ => hr q.1)
    refine ⟨ls'.flatten, ?_⟩
    unfold realRoots
    simp only [hz, Bool.not_false, assertThat, if_true, e, Option.bind_eq_bind, Option.bind_some, e1]
end Verif.RealRoots
