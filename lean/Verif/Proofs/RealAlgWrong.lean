import Verif.Proofs.RealAlgAll

/-!
# Real algebraic numbers: concrete runs that go wrong
-/

namespace Verif.RealRoots

open Polynomial Verif.Rings

/-- What a real algebraic number stands for is unique. -/
theorem RealAlg.Is.inj {x : RealAlg} {r t : ℝ} (h1 : x.Is r) (h2 : x.Is t) : r = t := by
  cases x with
  | rat a => exact Eq.trans h1 (Eq.symm h2)
  | real x =>
    have a : x.Is r := h1
    have b : x.Is t := h2
    exact b.tight.2.2.2.1 r a.ta_lt.le a.lt_tb.le a.root

/-- `refine` when the number is in the first third. -/
theorem ARoot.refine_left {s : ℚ → ℚ → ℚ} (hs : SimplestOk s) {x : ARoot} {r : ℝ} (h : x.Is r)
    (hl : r ≤ ((x.ta + (x.tb - x.ta) / 3 : ℚ) : ℝ)) :
    ∃ y, x.refine s = some y ∧ y.Is r ∧ y.ta = x.ta ∧ x.ta + (x.tb - x.ta) / 3 < y.tb := by
  obtain ⟨y, y1, y2, -⟩ := ARoot.refine_spec hs h
  obtain ⟨m, m1, m2, m3⟩ := middleThird_spec hs h.lt
  have y1' := y1
  unfold ARoot.refine at y1'
  simp only [m1, Option.bind_eq_bind, Option.bind_some] at y1'
  refine ⟨y, y1, y2, ?_⟩
  split at y1'
  · cases y1'
    exact ⟨rfl, m2⟩
  · cases y1'
    exfalso
    have h1 := y2.ta_lt
    have h2 : ((x.ta + (x.tb - x.ta) / 3 : ℚ) : ℝ) < m := by exact_mod_cast m2
    simp only at h1
    linarith

theorem identifyLoop_inv {s : ℚ → ℚ → ℚ} (hs : SimplestOk s) (gen : Nat → Option (ℚ × ℚ)) (rss : List (List ℝ)) :
    ∀ i groups possible r, identifyLoop s gen i groups possible = some r → List.Forall₂ SqRoots.All groups rss →
      (∀ ij ∈ possible, ∃ w, HasWidth groups ij w) →
      List.Forall₂ SqRoots.All r.1 rss ∧ r.1.map (·.poly) = groups.map (·.poly) ∧ ∀ ij ∈ r.2, ij ∈ possible := by
  refine identifyLoop.partial_correctness s gen (fun i groups possible r => List.Forall₂ SqRoots.All groups rss →
      (∀ ij ∈ possible, ∃ w, HasWidth groups ij w) →
      List.Forall₂ SqRoots.All r.1 rss ∧ r.1.map (·.poly) = groups.map (·.poly) ∧ ∀ ij ∈ r.2, ij ∈ possible) ?_
  intro loop ih i groups possible r h hall hw
  split at h
  · simp only [Option.bind_eq_bind, Option.bind_eq_some_iff] at h
    obtain ⟨t, t1, g', g1, h⟩ := h
    obtain ⟨g'', e1, e2, e3, e4⟩ := refineGroups_spec hs (possible.filter (keepRoot groups t)) groups hall (fun ij hij => hw ij (List.mem_filter.1 hij).1)
    rw [e1] at g1
    cases g1
    obtain ⟨a1, a2, a3⟩ := ih _ _ _ _ h e2 (fun ij hij => by
      obtain ⟨w, hw'⟩ := hw ij (List.mem_filter.1 hij).1
      exact ⟨w, (e4 ij w hw').1⟩)
    exact ⟨a1, a2.trans e3, fun ij hij => (List.mem_filter.1 (a3 ij hij)).1⟩
  · cases h
    exact ⟨hall, rfl, fun _ h => h⟩

theorem length_of_two {α : Type} {l : List α} {x y : α} (hx : x ∈ l) (hy : y ∈ l) (hne : x ≠ y) : l.length > 1 := by
  match l with
  | [] => simp at hx
  | [z] => simp at hx hy; exact absurd (hx.trans hy.symm) hne
  | _ :: _ :: _ => simp

theorem poly_eq_of_val {p q : List Int} (hp : PolyReduced (id : Int → Int) p) (hq : PolyReduced (id : Int → Int) q)
    (h : ipoly p = ipoly q) (h0 : ipoly p ≠ 0) : p = q := by
  have l1 := reduced_length hp h0
  have l2 := reduced_length hq (h ▸ h0)
  rw [← h] at l2
  apply List.ext_getElem (by omega)
  intro i h1 h2
  have e := congrArg (fun f => f.coeff i) h
  rw [coeff_polyVal (id : Int → Int) 0 rfl, coeff_polyVal (id : Int → Int) 0 rfl, List.getD_eq_getElem _ _ h1, List.getD_eq_getElem _ _ h2] at e
  exact e

theorem mapM_mem' {α β : Type} {f : α → Option β} {l : List α} {m : List β} (h : l.mapM f = some m) {y : β} (hy : y ∈ m) : ∃ x, x ∈ l ∧ f x = some y := by
  induction l generalizing m with
  | nil => rw [List.mapM_nil] at h; cases h; simp at hy
  | cons z l ih =>
    rw [List.mapM_cons] at h
    simp only [Option.bind_eq_bind, Option.bind_eq_some_iff] at h
    obtain ⟨w, y1, m', m1, m2⟩ := h
    cases m2
    rcases List.mem_cons.1 hy with rfl | hx
    · exact ⟨z, by simp, y1⟩
    · obtain ⟨w, w1, w2⟩ := ih m1 hx
      exact ⟨w, by simp [w1], w2⟩

theorem identify_some {s : ℚ → ℚ → ℚ} (hs : SimplestOk s) {fac : Fac} (hf : FacOk fac) {P : List Int} (h0 : rv P ≠ 0)
    {gen : Nat → Option (ℚ × ℚ)} {z : RealAlg} (h : identify s fac P gen = some z) :
    ∃ (groups : List SqRoots) (rss : List (List ℝ)) (g' : List SqRoots) (i j : Nat) (rs : List ℝ) (ρ : ℝ), List.Forall₂ SqRoots.All groups rss ∧
      (∀ R ∈ groups, FactorOk R.poly ∧ allRootsSquarefree R.poly = some R) ∧
      identifyLoop s gen 0 groups (allPairs groups) = some (g', [(i, j)]) ∧ rss[i]? = some rs ∧ rs[j]? = some ρ ∧ z.Is ρ := by
  have hi := rv_ne_zero.1 h0
  obtain ⟨s', s1, s2, s3, s4, s5⟩ := polyPrimSquarefreePart_spec intGcd_models P hi
  obtain ⟨pf, e, hv, ha, hfac⟩ := hf.spec s2.ne_zero
  obtain ⟨groups, rss, g1, g2, g3⟩ := mapM_groups pf.factors (fun q hq => (hfac q hq).1)
  unfold identify at h
  simp only [s1, e, g1, Option.bind_eq_bind, Option.bind_some, Option.bind_eq_some_iff] at h
  obtain ⟨⟨g', l⟩, h1, h2⟩ := h
  have hgr : ∀ R ∈ groups, FactorOk R.poly ∧ allRootsSquarefree R.poly = some R := by
    intro R hR
    have hp : R.poly ∈ pf.factors.map (·.1) := by rw [← g3]; exact List.mem_map.2 ⟨R, hR, rfl⟩
    obtain ⟨q, q1, q2⟩ := List.mem_map.1 hp
    refine ⟨q2 ▸ (hfac q q1).1, ?_⟩
    obtain ⟨q', -, hq'⟩ := mapM_mem' g1 hR
    obtain ⟨R2, rs2, r1, r2, -⟩ := allRoots_spec (p := q'.1) (by
      intro e0
      unfold allRootsSquarefree at hq'
      exact (rootsSquarefree_some hq').1 e0) (by
      unfold allRootsSquarefree at hq'
      exact (rootsSquarefree_some hq').2.1)
    rw [hq'] at r1
    cases r1
    rw [r2]; exact hq'
  have hwd : ∀ ij ∈ allPairs groups, ∃ w, HasWidth groups ij w := by
    intro ij hij
    obtain ⟨R, r1, r2⟩ := (mem_allPairs groups ij).1 hij
    exact ⟨_, R, _, r1, List.getElem?_eq_getElem r2, le_refl _⟩
  obtain ⟨a1, a2, a3⟩ := identifyLoop_inv hs gen rss 0 groups (allPairs groups) _ h1 g2 hwd
  match l, h1, h2, a3 with
  | [(i, j)], h1, h2, a3 =>
    simp only [Option.bind_eq_some_iff] at h2
    obtain ⟨R, r1, l, l1, ans, l2, ok, k1, -, k2, k3⟩ := h2
    cases k3
    obtain ⟨hi', rfl⟩ := List.getElem?_eq_some_iff.1 r1
    have hall := (List.forall₂_iff_get.1 a1).2 i hi' (a1.length_eq ▸ hi')
    simp only [List.get_eq_getElem] at hall
    have hig : i < groups.length := by
      have := congrArg List.length a2
      simp at this; omega
    have hpo : g'[i].poly = groups[i].poly := by
      have := List.getElem_of_eq a2 (i := i) (by simpa using hi')
      simpa using this
    obtain ⟨fo, -⟩ := hgr groups[i] (List.getElem_mem hig)
    rw [← hpo] at fo
    obtain ⟨l', l1', l2'⟩ := hall.toRealRoots hf fo.irreducible fo.reduced fo.positive
    rw [l1] at l1'
    cases l1'
    obtain ⟨hj, rfl⟩ := List.getElem?_eq_some_iff.1 l2
    have hj' := l2'.length_eq ▸ hj
    exact ⟨groups, rss, g', i, j, _, _, g2, hgr, h1, List.getElem?_eq_getElem (a1.length_eq ▸ hi'), List.getElem?_eq_getElem hj',
      (List.forall₂_iff_get.1 l2').2 j hj hj'⟩
theorem caLoop_one {c k : Nat} {q : List Int} {l : List (Nat × Nat × List Int)} {isol : List (Nat × Nat × Bool)}
    (h1 : nodeRoot c k q isol = some (q, isol)) (h2 : signVariations (intGcd.polyCompose (polyReversed q) [1, 1]) = some 1) :
    caLoop ((c, k, q) :: l) isol = caLoop l (isol ++ [(c, k, true)]) := by
  rw [caLoop]
  simp only [h1, h2, Option.bind_eq_bind, Option.bind_some, if_true]

theorem caLoop_zero {c k : Nat} {q : List Int} {l : List (Nat × Nat × List Int)} {isol : List (Nat × Nat × Bool)}
    (h1 : nodeRoot c k q isol = some (q, isol)) (h2 : signVariations (intGcd.polyCompose (polyReversed q) [1, 1]) = some 0) :
    caLoop ((c, k, q) :: l) isol = caLoop l isol := by
  rw [caLoop]
  simp only [h1, h2, Option.bind_eq_bind, Option.bind_some]
  simp

theorem caLoop_two {c k : Nat} {q q' : List Int} {l : List (Nat × Nat × List Int)} {isol : List (Nat × Nat × Bool)}
    (h1 : nodeRoot c k q isol = some (q, isol)) (h2 : signVariations (intGcd.polyCompose (polyReversed q) [1, 1]) = some 2)
    (h3 : qSmall q = some q') :
    caLoop ((c, k, q) :: l) isol = caLoop ((2 * c, k + 1, q') :: (2 * c + 1, k + 1, intGcd.polyCompose q' [1, 1]) :: l) isol := by
  rw [caLoop]
  simp only [h1, h2, h3, Option.bind_eq_bind, Option.bind_some]
  simp

/-- Clearing denominators, when the result is known. -/
theorem fof_eq {p : List ℚ} {c0 : ℚ} {q0 : List Int} (hc0 : 0 < c0) (hq0 : (ipoly q0).IsPrimitive) (hr0 : PolyReduced (id : Int → Int) q0)
    (hp : p = q0.map fun c : Int => c0 * (c : ℚ)) :
    ∃ c, polyFactorPrimitiveFof ratOps intGcd (fun c : Int => (c : ℚ)) ratNumerator ratDenominator p = some (c, q0) := by
  have hval : polyVal (id : ℚ → ℚ) p = C c0 * qpoly q0 := by
    rw [hp]
    clear hp hr0 hq0
    induction q0 with
    | nil => simp [qpoly]
    | cons a l ih =>
      rw [List.map_cons, polyVal_cons, ih]
      simp only [qpoly, polyVal_cons, Polynomial.map_add, Polynomial.map_mul, map_C, map_X, id, C_mul]
      simp
      ring
  have hq0' : qpoly q0 ≠ 0 := by
    intro e
    exact hq0.ne_zero ((Polynomial.map_eq_zero_iff (RingHom.injective_int (Int.castRingHom ℚ))).1 e)
  have hne : polyVal (id : ℚ → ℚ) p ≠ 0 := by
    rw [hval]
    exact mul_ne_zero (C_ne_zero.2 hc0.ne') hq0'
  obtain ⟨c, q, e, hc, hq, hv, hlen⟩ := ratFof_spec hne
  refine ⟨c, ?_⟩
  rw [e]
  congr 2
  have hcc : C c * qpoly q = C c0 * qpoly q0 := hv.symm.trans hval
  have d1 : ipoly q ∣ ipoly q0 := by
    rw [IsPrimitive.Int.dvd_iff_map_cast_dvd_map_cast _ _ hq]
    refine ⟨C (c0⁻¹ * c), ?_⟩
    rw [mul_comm, C_mul, mul_assoc]
    change qpoly q0 = C c0⁻¹ * (C c * qpoly q)
    rw [hcc, ← mul_assoc, ← C_mul, inv_mul_cancel₀ hc0.ne', C_1, one_mul]
  have d2 : ipoly q0 ∣ ipoly q := by
    rw [IsPrimitive.Int.dvd_iff_map_cast_dvd_map_cast _ _ hq0]
    refine ⟨C (c⁻¹ * c0), ?_⟩
    rw [mul_comm, C_mul, mul_assoc]
    change qpoly q = C c⁻¹ * (C c0 * qpoly q0)
    rw [← hcc, ← mul_assoc, ← C_mul, inv_mul_cancel₀ hc.ne', C_1, one_mul]
  have heq : ipoly q = ipoly q0 := by
    obtain ⟨u, hu⟩ := associated_of_dvd_dvd d1 d2
    obtain ⟨w, hw, hwu⟩ := Polynomial.isUnit_iff.1 u.isUnit
    rcases Int.isUnit_iff.1 hw with rfl | rfl
    · rw [← hu, ← hwu]; simp
    · exfalso
      have h1 : ipoly q0 = -ipoly q := by rw [← hu, ← hwu]; simp
      have h2 : qpoly q0 = - qpoly q := by
        unfold qpoly
        rw [h1, Polynomial.map_neg]
      rw [h2] at hcc
      have h3 : C (c + c0) * qpoly q = 0 := by rw [C_add, add_mul, hcc]; ring
      rcases mul_eq_zero.1 h3 with h4 | h4
      · have := C_eq_zero.1 h4; linarith
      · exact hq0' (by rw [h2, h4, neg_zero])
  have hlen' : q.length = (ipoly q0).natDegree + 1 := by
    rw [hlen, hp, List.length_map]; exact reduced_length hr0 hq0.ne_zero
  exact poly_eq_of_val (reduced_of_length hq.ne_zero (by rw [heq]; exact hlen')) hr0 heq hq.ne_zero

theorem transPoly_eq {p t : List Int} {a b c0 : ℚ} (hc0 : 0 < c0) (ht : (ipoly t).IsPrimitive) (hr : PolyReduced (id : Int → Int) t)
    (h : ratOps.polyCompose (p.map fun c : Int => (c : ℚ)) [a, b - a] = t.map fun c : Int => c0 * (c : ℚ)) : transPoly p a b = some t := by
  obtain ⟨c, e⟩ := fof_eq hc0 ht hr h
  rw [transPoly, e]; rfl

/-- A run on a quadratic polynomial. -/
theorem allRoots_concrete {p t : List Int} {m : ℚ} {isol : List (Nat × Nat × Bool)} {ivs : List RootIv} (h0 : rv p ≠ 0) (hsq : Squarefree (rv p))
    (hd : intGcd.polyDegree p = some 2) (hm : cauchyBound p 2 = m) (ha : evalAtRat p (-m) ≠ 0) (hb : evalAtRat p m ≠ 0)
    (ht : transPoly p (-m) m = some t) (hl : caLoop [(0, 0, t)] [] = some isol) (hi : isol.mapM (caInterval p (-m) m) = some ivs) :
    allRootsSquarefree p = some ⟨p, ivs⟩ := by
  obtain ⟨R, rs, r1, -⟩ := allRoots_spec h0 hsq
  rw [r1]
  unfold allRootsSquarefree rootsSquarefree at r1
  simp only [hd, hm, Option.bind_eq_bind, Option.bind_some, Option.bind_eq_some_iff] at r1
  obtain ⟨-, -, r1⟩ := r1
  simp only [OfNat.ofNat_ne_zero, OfNat.ofNat_ne_one, if_false, Option.bind_eq_some_iff] at r1
  obtain ⟨-, -, -, -, r1⟩ := r1
  unfold rootsBetween dropEnd at r1
  simp only [if_neg ha, if_neg hb, ht, Option.bind_eq_bind, Option.bind_some, Option.bind_eq_some_iff] at r1
  obtain ⟨-, -, -, -, -, -, isol', h1, ivs', h2, ok, -, -, -, h3⟩ := r1
  unfold isolateCA at h1
  simp only [Option.bind_eq_bind, Option.bind_eq_some_iff] at h1
  obtain ⟨-, -, -, -, -, -, -, -, h1⟩ := h1
  rw [hl] at h1
  cases h1
  rw [hi] at h2
  cases h2
  simp only [ha, hb, false_and, if_false, List.nil_append, List.append_nil] at h3
  exact h3.symm

end Verif.RealRoots
