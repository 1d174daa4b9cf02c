import Verif.Proofs.DistinctDegree
import Mathlib.FieldTheory.Finiteness

/-!
# The Cantor–Zassenhaus algorithm
-/

namespace Verif.Rings

open Polynomial

section
variable {K : Type} [Field K]

/-- there is an element of non-zero trace -/
theorem exists_trace_ne_zero [Finite K] {π : K[X]} (hπ : Irreducible π) {m : Nat} (hm : 0 < m) (hc : Nat.card K ^ π.natDegree = 2 ^ m) :
    ∃ b : K[X], ¬ π ∣ ∑ j ∈ Finset.range m, b ^ 2 ^ j := by
  classical
  haveI : Fact (Irreducible π) := ⟨hπ⟩
  let L := AdjoinRoot π
  haveI : Module.Finite K L := (AdjoinRoot.powerBasis hπ.ne_zero).finite
  haveI : Finite L := Module.finite_of_finite K
  haveI : Fintype L := Fintype.ofFinite L
  have hcard : Fintype.card L = 2 ^ m := by
    rw [← Nat.card_eq_fintype_card, Module.natCard_eq_pow_finrank (K := K) (V := L), ← hc]
    congr 1
    exact (AdjoinRoot.powerBasis hπ.ne_zero).finrank
  let T : L[X] := ∑ j ∈ Finset.range m, X ^ 2 ^ j
  have hT1 : T.coeff 1 = 1 := by
    simp only [T, finsetSum_coeff, coeff_X_pow]
    rw [Finset.sum_eq_single 0]
    · simp
    · intro j _ hj
      rw [if_neg]
      intro e
      exact absurd (Nat.one_lt_two_pow hj) (by omega)
    · intro h; exact absurd (Finset.mem_range.2 hm) h
  have hT0 : T ≠ 0 := by
    intro e; rw [e] at hT1; simp at hT1
  have hdeg : T.natDegree ≤ 2 ^ (m - 1) := by
    refine natDegree_sum_le_of_forall_le _ _ fun j hj => ?_
    rw [natDegree_X_pow]
    have := Finset.mem_range.1 hj
    exact Nat.pow_le_pow_right (by norm_num) (by omega)
  have hlt : T.roots.toFinset.card < Fintype.card L := by
    refine lt_of_le_of_lt (Multiset.toFinset_card_le _) (lt_of_le_of_lt ((card_roots' T).trans hdeg) ?_)
    rw [hcard]
    exact Nat.pow_lt_pow_right (by norm_num) (by omega)
  obtain ⟨x, hx⟩ : ∃ x : L, x ∉ T.roots.toFinset := by
    by_contra hcon
    push Not at hcon
    have : T.roots.toFinset = Finset.univ := Finset.eq_univ_iff_forall.2 hcon
    rw [this, Finset.card_univ] at hlt
    exact lt_irrefl _ hlt
  obtain ⟨b, rfl⟩ := AdjoinRoot.mk_surjective x
  refine ⟨b, fun hd => hx ?_⟩
  rw [Multiset.mem_toFinset, mem_roots hT0, IsRoot.def]
  simp only [T, eval_finset_sum, eval_pow, eval_X]
  rw [← AdjoinRoot.mk_eq_zero, map_sum] at hd
  simpa using hd

/-- Chinese remainder theorem with a bound for the degree -/
theorem crt_poly {P π₁ π₂ : K[X]} (hP : P ≠ 0) (h1 : π₁ ∣ P) (h2 : π₂ ∣ P) (hc : IsCoprime π₁ π₂) (c₁ c₂ : K[X]) :
    ∃ w : K[X], w.degree < P.natDegree ∧ π₁ ∣ w - c₁ ∧ π₂ ∣ w - c₂ := by
  obtain ⟨s, t, hst⟩ := hc
  refine ⟨(c₁ * (t * π₂) + c₂ * (s * π₁)) % P, degree_mod_lt hP _, ?_, ?_⟩
  · have e := h1.trans (dvd_sub_polyMod (c₁ * (t * π₂) + c₂ * (s * π₁)) P)
    have e2 : π₁ ∣ (c₁ * (t * π₂) + c₂ * (s * π₁)) - c₁ := ⟨(c₂ - c₁) * s, by linear_combination c₁ * hst⟩
    have := dvd_sub e2 e
    simpa using this
  · have e := h2.trans (dvd_sub_polyMod (c₁ * (t * π₂) + c₂ * (s * π₁)) P)
    have e2 : π₂ ∣ (c₁ * (t * π₂) + c₂ * (s * π₁)) - c₂ := ⟨(c₁ - c₂) * t, by linear_combination c₂ * hst⟩
    have := dvd_sub e2 e
    simpa using this

/-- the degree of a product of irreducible polynomials of degree `d` -/
theorem dvd_natDegree_of_factors {d : Nat} {u : K[X]} (hu : u ≠ 0) (h : ∀ π : K[X], Irreducible π → π ∣ u → π.natDegree = d) :
    d ∣ u.natDegree := by
  induction u using WfDvdMonoid.induction_on_irreducible with
  | zero => exact absurd rfl hu
  | unit u hunit => rw [natDegree_eq_zero_of_isUnit hunit]; exact dvd_zero _
  | mul a i ha hi ih =>
    rw [natDegree_mul hi.ne_zero ha]
    exact dvd_add (by rw [h i hi (dvd_mul_right _ _)]) (ih ha fun π hπ hd => h π hπ (hd.mul_left _))

/-- `g` separates two irreducible factors of `u` -/
def Separates (g u : K[X]) : Prop :=
  ∃ π₁ π₂ : K[X], Irreducible π₁ ∧ Irreducible π₂ ∧ π₁ ∣ u ∧ π₂ ∣ u ∧ π₁ ∣ g ∧ ¬ π₂ ∣ g

end

section
variable {α K : Type} [Field K] {F : FinFieldOps α} {v : α → K} (h : F.Models v)
include h

theorem FinFieldOps.Models.traceLoop (n : Nat) (sum sq : List α) :
    polyVal v (F.traceLoop n sum sq) = polyVal v sum + ∑ j ∈ Finset.range n, polyVal v sq ^ 2 ^ j := by
  induction n generalizing sum sq with
  | zero => simp [FinFieldOps.traceLoop]
  | succ n ih =>
    rw [FinFieldOps.traceLoop, ih, h.toDomain.toRing.toSemi.polyAdd, h.toDomain.toRing.toSemi.polyMul, Finset.sum_range_succ']
    have : ∀ j, (polyVal v sq * polyVal v sq) ^ 2 ^ j = polyVal v sq ^ 2 ^ (j + 1) := by
      intro j
      rw [← pow_two, ← pow_mul]
      congr 1
      rw [pow_succ, mul_comm]
    simp only [this]
    rw [pow_zero, pow_one]
    ring

theorem FinFieldOps.Models.czG_two (poly w : List α) (d : Nat) (h2 : F.charPow.1 = 2) :
    polyVal v (F.czG poly d w) = ∑ j ∈ Finset.range (F.charPow.2 * d), polyVal v w ^ 2 ^ j := by
  unfold FinFieldOps.czG
  rw [if_pos h2, h.traceLoop]
  simp

theorem FinFieldOps.Models.czG_odd (poly w : List α) (d : Nat) (h2 : F.charPow.1 ≠ 2) (hp : polyVal v poly ≠ 0) :
    polyVal v poly ∣ polyVal v (F.czG poly d w) - (polyVal v w ^ ((F.q ^ d - 1) / 2) - 1) := by
  unfold FinFieldOps.czG
  rw [if_neg h2]
  have hQ := h.toDomain.polyEuc.quotientRing poly hp
  have e := hQ.add ((F.pqRing poly).natPow w ((F.q ^ d - 1) / 2)) ((F.pqRing poly).neg (F.pqRing poly).one)
  rw [← quot_eq_iff]
  refine e.trans ?_
  have e2 := hQ.toSemi.natPow w ((F.q ^ d - 1) / 2)
  have e3 := hQ.neg (F.pqRing poly).one
  have e4 := hQ.one
  have e3' : (fun a => Ideal.Quotient.mk (Ideal.span {polyVal v poly}) (polyVal v a)) ((F.pqRing poly).neg (F.pqRing poly).one)
      = - (fun a => Ideal.Quotient.mk (Ideal.span {polyVal v poly}) (polyVal v a)) (F.pqRing poly).one := e3
  simp only at e3' e2 e4 ⊢
  rw [e3']
  refine Eq.trans (congrArg₂ (· + ·) e2 (congrArg Neg.neg e4)) ?_
  rw [map_sub, map_pow, map_one, sub_eq_add_neg]

/-- some word splits every reducible divisor -/
theorem FinFieldOps.Models.cz_word (poly u : List α) (d : Nat) (hP : polyVal v poly ≠ 0) (hsq : Squarefree (polyVal v poly))
    (hu : DdGood v (d, u)) (hup : polyVal v u ∣ polyVal v poly) (hud : (polyVal v u).natDegree ≠ d) :
    ∃ w : K[X], w.degree < (polyVal v poly).natDegree ∧ ∀ l : List α, polyVal v l = w → Separates (polyVal v (F.czG poly d l)) (polyVal v u) := by
  haveI := h.finite
  obtain ⟨um, u1, ud⟩ := hu
  simp only at um u1 ud
  obtain ⟨π₁, i1, t, ht⟩ := exists_irreducible_dvd um u1
  have ht0 : t ≠ 0 := by rintro rfl; rw [mul_zero] at ht; exact um.ne_zero ht
  have htu : ¬ IsUnit t := by
    intro hc
    apply hud
    rw [ht, natDegree_mul i1.ne_zero ht0, natDegree_eq_zero_of_isUnit hc, add_zero]
    exact ud π₁ i1 ⟨t, ht⟩
  obtain ⟨π₂, i2, h2t⟩ := WfDvdMonoid.exists_irreducible_factor htu ht0
  have d1 : π₁ ∣ polyVal v u := ⟨t, ht⟩
  have d2 : π₂ ∣ polyVal v u := by rw [ht]; exact h2t.mul_left _
  have hc : IsCoprime π₁ π₂ := by
    rw [i1.coprime_iff_not_dvd]
    intro hdv
    have : π₁ * π₁ ∣ polyVal v u := by
      conv_rhs => rw [ht]
      exact mul_dvd_mul_left _ (hdv.trans h2t)
    exact i1.not_isUnit (hsq _ (this.trans hup))
  have hd0 : 0 < d := by rw [← ud π₁ i1 d1]; exact i1.natDegree_pos
  have hk0 : F.charPow.2 ≠ 0 := by
    intro e
    have hcd := h.card
    rw [e, pow_zero] at hcd
    exact absurd (Finite.one_lt_card (α := K)) (by omega)
  by_cases h2 : F.charPow.1 = 2
  · obtain ⟨b, hb⟩ := exists_trace_ne_zero i2 (m := F.charPow.2 * d) (Nat.mul_pos (Nat.pos_of_ne_zero hk0) hd0) (by
      rw [h.card, h2, ud π₂ i2 d2, pow_mul])
    obtain ⟨w, w1, w2, w3⟩ := crt_poly hP (d1.trans hup) (d2.trans hup) hc 0 b
    refine ⟨w, w1, fun l hl => ⟨π₁, π₂, i1, i2, d1, d2, ?_, ?_⟩⟩
    · rw [h.czG_two poly l d h2, hl]
      rw [sub_zero] at w2
      exact Finset.dvd_sum fun j _ => w2.trans (dvd_pow_self _ (by positivity))
    · rw [h.czG_two poly l d h2, hl]
      intro hcon
      apply hb
      have : π₂ ∣ ∑ j ∈ Finset.range (F.charPow.2 * d), (w ^ 2 ^ j - b ^ 2 ^ j) :=
        Finset.dvd_sum fun j _ => w3.trans (sub_dvd_pow_sub_pow _ _ _)
      rw [Finset.sum_sub_distrib] at this
      have := dvd_sub hcon this
      simpa using this
  · obtain ⟨w, w1, w2, w3⟩ := crt_poly hP (d1.trans hup) (d2.trans hup) hc 1 0
    have ha : (F.q ^ d - 1) / 2 ≠ 0 := by
      have hp3 : 3 ≤ F.charPow.1 := by have := h.prime.two_le; omega
      have hq3 : 3 ≤ F.q := by
        unfold FinFieldOps.q
        exact hp3.trans (Nat.le_self_pow hk0 _)
      have := hq3.trans (Nat.le_self_pow (by omega : d ≠ 0) F.q)
      omega
    refine ⟨w, w1, fun l hl => ⟨π₁, π₂, i1, i2, d1, d2, ?_, ?_⟩⟩
    · have e := (d1.trans hup).trans (h.czG_odd poly l d h2 hP)
      rw [hl] at e
      have e2 : π₁ ∣ w ^ ((F.q ^ d - 1) / 2) - 1 := by
        have := w2.trans (sub_dvd_pow_sub_pow w 1 ((F.q ^ d - 1) / 2))
        rwa [one_pow] at this
      have := dvd_add e e2
      simpa using this
    · intro hcon
      have e := (d2.trans hup).trans (h.czG_odd poly l d h2 hP)
      rw [hl] at e
      rw [sub_zero] at w3
      have e2 : π₂ ∣ w ^ ((F.q ^ d - 1) / 2) := w3.trans (dvd_pow_self _ ha)
      have e3 := dvd_sub hcon e
      have e4 := dvd_sub e3 e2
      apply i2.not_isUnit
      refine isUnit_of_dvd_one ?_
      rw [← dvd_neg]
      simpa using e4


theorem FinFieldOps.Models.czSplit (d : Nat) (g u : List α) (hu : DdGood v (d, u)) :
    ∃ l, F.czSplit g u = some l ∧
      ((l = [u] ∧ ¬ Separates (polyVal v g) (polyVal v u)) ∨
      ∃ a b, l = [a, b] ∧ polyVal v u = polyVal v a * polyVal v b ∧ (polyVal v a).Monic ∧ (polyVal v b).Monic ∧
        polyVal v a ≠ 1 ∧ polyVal v b ≠ 1) := by
  have hd := h.toDomain
  obtain ⟨um, u1, ud⟩ := hu
  simp only at um u1 ud
  obtain ⟨s, s1, s2, s3⟩ := polySubresultantGcd_spec (K := K) hd u g (fun e => um.ne_zero e.1)
  have s4 := isPolyGcd_of_span s3
  obtain ⟨w, w1, w2, w3⟩ := h.monicOf s s2
  have w4 : IsPolyGcd (polyVal v w) (polyVal v u) (polyVal v g) := fun e => by rw [← s4, w3.dvd_iff_dvd_right]
  have hwu := ((w4 _).1 dvd_rfl).1
  have dw := hd.toRing.toSemi.polyDegree_some w w2.ne_zero
  have du := hd.toRing.toSemi.polyDegree_some u um.ne_zero
  have hunf : F.czSplit g u = if (polyVal v w).natDegree = 0 ∨ (polyVal v w).natDegree = (polyVal v u).natDegree then some [u]
      else (F.pdiv u w).map fun t => [t, w] := by
    unfold FinFieldOps.czSplit
    simp only [s1, w1, dw, du, Option.bind_eq_bind, Option.bind_some]
  rw [hunf]
  by_cases hc : (polyVal v w).natDegree = 0 ∨ (polyVal v w).natDegree = (polyVal v u).natDegree
  · rw [if_pos hc]
    refine ⟨[u], rfl, Or.inl ⟨rfl, ?_⟩⟩
    rintro ⟨π₁, π₂, i1, i2, d1, d2, g1, g2⟩
    rcases hc with hc | hc
    · have h1 := w2.natDegree_eq_zero.1 hc
      have := (w4 π₁).2 ⟨d1, g1⟩
      rw [h1] at this
      exact i1.not_isUnit (isUnit_of_dvd_one this)
    · have h1 : polyVal v w = polyVal v u := (eq_of_monic_of_dvd_of_natDegree_le w2 um hwu hc.ge).symm
      have := ((w4 π₂).1 (by rw [h1]; exact d2)).2
      exact g2 this
  · rw [if_neg hc]
    push Not at hc
    obtain ⟨t, t1, t2⟩ := h.pdiv u w w2.ne_zero hwu
    refine ⟨[t, w], by rw [t1]; rfl, Or.inr ⟨t, w, rfl, t2, monic_left (by rw [← t2]; exact um) w2, w2, ?_, ?_⟩⟩
    · intro e
      rw [e, one_mul] at t2
      exact hc.2 (by rw [t2])
    · intro e
      rw [e] at hc
      simp at hc

/-- the measure that a split decreases -/
noncomputable def czMeasure {α K : Type} [Field K] (v : α → K) (l : List (List α)) : Nat :=
  (l.map fun u => (polyVal v u).natDegree - 1).sum

/-- the polynomials in the list are products of irreducible factors of degree `d` of the given polynomial -/
def CzGood {α K : Type} [Field K] (v : α → K) (P : K[X]) (d : Nat) (l : List (List α)) : Prop :=
  ∀ u ∈ l, DdGood v (d, u) ∧ polyVal v u ∣ P

omit h in
theorem DdGood.left {d : Nat} {u a : List α} {b : K[X]} (hu : DdGood v (d, u)) (e : polyVal v u = polyVal v a * b) (ha : (polyVal v a).Monic)
    (h1 : polyVal v a ≠ 1) : DdGood v (d, a) :=
  ⟨ha, h1, fun π hπ hpa => hu.2.2 π hπ (hpa.trans ⟨b, e⟩)⟩

omit h in
theorem DdGood.natDegree_pos {d : Nat} {u : List α} (hu : DdGood v (d, u)) : 0 < (polyVal v u).natDegree :=
  Nat.pos_of_ne_zero fun h0 => hu.2.1 (hu.1.natDegree_eq_zero.1 h0)

theorem FinFieldOps.Models.czSplits (P : K[X]) (d : Nat) (g : List α) (l : List (List α)) (hl : CzGood v P d l) :
    ∃ ls, l.mapM (F.czSplit g) = some ls ∧ CzGood v P d ls.flatten ∧
      (ls.flatten.map (polyVal v)).prod = (l.map (polyVal v)).prod ∧
      ((ls.flatten = l ∧ ∀ u ∈ l, ¬ Separates (polyVal v g) (polyVal v u)) ∨ czMeasure v ls.flatten < czMeasure v l) := by
  induction l with
  | nil => exact ⟨[], rfl, by simpa [CzGood] using hl, rfl, Or.inl ⟨rfl, by simp⟩⟩
  | cons u l ih =>
    obtain ⟨gu, du⟩ := hl u (by simp)
    obtain ⟨ls, i1, i2, i3, i4⟩ := ih (fun u hu => hl u (by simp [hu]))
    obtain ⟨s, s1, s2⟩ := h.czSplit d g u gu
    have e : (u :: l).mapM (F.czSplit g) = some (s :: ls) := by rw [List.mapM_cons, s1, i1]; rfl
    have hle : czMeasure v ls.flatten ≤ czMeasure v l := by
      rcases i4 with ⟨i4, -⟩ | i4
      · rw [i4]
      · exact i4.le
    have happ : ∀ a b : List (List α), czMeasure v (a ++ b) = czMeasure v a + czMeasure v b := fun a b => by
      unfold czMeasure; rw [List.map_append, List.sum_append]
    refine ⟨s :: ls, e, ?_, ?_, ?_⟩
    · rcases s2 with ⟨rfl, -⟩ | ⟨a, b, rfl, hab, am, bm, a1, b1⟩
      · rw [List.flatten_cons]
        intro x hx
        rw [List.mem_append, List.mem_singleton] at hx
        rcases hx with rfl | hx
        · exact ⟨gu, du⟩
        · exact i2 x hx
      · rw [List.flatten_cons]
        intro x hx
        simp only [List.mem_append, List.mem_cons, List.not_mem_nil, or_false] at hx
        rcases hx with (rfl | rfl) | hx
        · exact ⟨gu.left hab am a1, (Dvd.intro _ hab.symm).trans du⟩
        · exact ⟨gu.left (by rw [hab, mul_comm]) bm b1, (Dvd.intro_left _ hab.symm).trans du⟩
        · exact i2 x hx
    · rw [List.flatten_cons, List.map_append, List.prod_append, i3, List.map_cons, List.prod_cons]
      congr 1
      rcases s2 with ⟨rfl, -⟩ | ⟨a, b, rfl, hab, -⟩
      · simp
      · simp [hab]
    · rcases s2 with ⟨rfl, hs⟩ | ⟨a, b, rfl, hab, am, bm, a1, b1⟩
      · rcases i4 with ⟨i4, i5⟩ | i4
        · refine Or.inl ⟨by rw [List.flatten_cons, i4]; rfl, ?_⟩
          intro x hx
          rcases List.mem_cons.1 hx with rfl | hx
          · exact hs
          · exact i5 x hx
        · refine Or.inr ?_
          rw [List.flatten_cons, happ]
          change _ < czMeasure v ([u] ++ l)
          rw [happ]; omega
      · refine Or.inr ?_
        rw [List.flatten_cons, happ]
        change _ < czMeasure v ([u] ++ l)
        rw [happ]
        have h1 := (gu.left hab am a1).natDegree_pos
        have h2 := (gu.left (a := b) (by rw [hab, mul_comm]) bm b1).natDegree_pos
        have h3 : (polyVal v u).natDegree = (polyVal v a).natDegree + (polyVal v b).natDegree := by
          rw [hab, natDegree_mul am.ne_zero bm.ne_zero]
        have h4 : czMeasure v [a, b] = ((polyVal v a).natDegree - 1) + ((polyVal v b).natDegree - 1) := by simp [czMeasure]
        have h5 : czMeasure v [u] = (polyVal v u).natDegree - 1 := by simp [czMeasure]
        omega

theorem FinFieldOps.Models.czCollect (P : K[X]) (d mult : Nat) (hmult : 0 < mult) (l : List (List α)) (fs : Factored (List α))
    (hl : CzGood v P d l) (hfs : fs.Valid F.P.toFavOps (polyVal v)) :
    ∃ fs' rest, F.czCollect d mult l fs = some (fs', rest) ∧ fs'.Valid F.P.toFavOps (polyVal v) ∧ CzGood v P d rest ∧
      fs'.denote (polyVal v) * (rest.map (polyVal v)).prod ^ mult = fs.denote (polyVal v) * (l.map (polyVal v)).prod ^ mult ∧
      (∀ u ∈ rest, u ∈ l ∧ (polyVal v u).natDegree ≠ d) ∧ (∀ u ∈ l, (polyVal v u).natDegree ≠ d → u ∈ rest) ∧
      czMeasure v rest ≤ czMeasure v l := by
  induction l generalizing fs with
  | nil => exact ⟨fs, [], rfl, hfs, by simpa [CzGood] using hl, rfl, by simp, by simp, le_rfl⟩
  | cons u l ih =>
    obtain ⟨gu, du⟩ := hl u (by simp)
    have hl' : CzGood v P d l := fun u hu => hl u (by simp [hu])
    have hdeg := h.toDomain.toRing.toSemi.polyDegree_some u gu.1.ne_zero
    by_cases hud : (polyVal v u).natDegree = d
    · have hirr : Irreducible (polyVal v u) := by
        obtain ⟨π, hπ, t, ht⟩ := exists_irreducible_dvd gu.1 gu.2.1
        have ht0 : t ≠ 0 := by rintro rfl; rw [mul_zero] at ht; exact gu.1.ne_zero ht
        have hpd := gu.2.2 π hπ ⟨t, ht⟩
        have hmul := natDegree_mul hπ.ne_zero ht0
        rw [← ht, hud, hpd] at hmul
        have htu : IsUnit t := by
          rw [isUnit_iff_degree_eq_zero, degree_eq_natDegree ht0]
          have : t.natDegree = 0 := by simp only at hmul; omega
          rw [this]; rfl
        rw [ht]
        exact (irreducible_mul_isUnit htu).2 hπ
      obtain ⟨irr, r1, r2, r3⟩ := Factored.factoredIrreducible_spec h.PFav u hirr
      obtain ⟨p1, p2⟩ := h.pow_valid r2 (by rw [r3]; exact gu.1) mult hmult
      obtain ⟨c, c1, c2, c3⟩ := Factored.mul_spec h.PFav fs (irr.pow mult) hfs.fav p1.fav
      obtain ⟨fs', rest, i1, i2, i3, i4, i5, i6, i7⟩ := ih c hl' (c3 hfs p1)
      refine ⟨fs', rest, ?_, i2, i3, ?_, fun x hx => ⟨List.mem_cons_of_mem _ (i5 x hx).1, (i5 x hx).2⟩, ?_, ?_⟩
      · rw [FinFieldOps.czCollect]
        simp only [hdeg, hud, if_true, r1, c1, Option.bind_eq_bind, Option.bind_some]
        exact i1
      · rw [i4, c2, p2, r3, List.map_cons, List.prod_cons]; ring
      · intro x hx hxd
        rcases List.mem_cons.1 hx with rfl | hx
        · exact absurd hud hxd
        · exact i6 x hx hxd
      · exact i7.trans (by unfold czMeasure; rw [List.map_cons, List.sum_cons]; omega)
    · obtain ⟨fs', rest, i1, i2, i3, i4, i5, i6, i7⟩ := ih fs hl' hfs
      refine ⟨fs', u :: rest, ?_, i2, ?_, ?_, ?_, ?_, ?_⟩
      · rw [FinFieldOps.czCollect]
        simp only [hdeg, hud, if_false, i1, Option.bind_eq_bind, Option.bind_some]
        rfl
      · intro x hx
        rcases List.mem_cons.1 hx with rfl | hx
        · exact ⟨gu, du⟩
        · exact i3 x hx
      · rw [List.map_cons, List.prod_cons, List.map_cons, List.prod_cons, mul_pow, mul_pow]
        linear_combination (polyVal v u ^ mult) * i4
      · intro x hx
        rcases List.mem_cons.1 hx with rfl | hx
        · exact ⟨by simp, hud⟩
        · exact ⟨List.mem_cons_of_mem _ (i5 x hx).1, (i5 x hx).2⟩
      · intro x hx hxd
        rcases List.mem_cons.1 hx with rfl | hx
        · simp
        · exact List.mem_cons_of_mem _ (i6 x hx hxd)
      · unfold czMeasure at i7 ⊢
        rw [List.map_cons, List.sum_cons, List.map_cons, List.sum_cons]; omega

/-- partial correctness, for every stream -/
theorem FinFieldOps.Models.czLoop_sound (rand : Nat → α) (poly : List α) (n d mult : Nat) (hmult : 0 < mult) (P : K[X])
    (l : List (List α)) (pos : Nat) (fs r : Factored (List α)) (e : F.czLoop rand poly n d mult l pos fs = some r)
    (hl : CzGood v P d l) (hfs : fs.Valid F.P.toFavOps (polyVal v)) :
    r.Valid F.P.toFavOps (polyVal v) ∧ r.denote (polyVal v) = fs.denote (polyVal v) * (l.map (polyVal v)).prod ^ mult := by
  refine FinFieldOps.czLoop.partial_correctness F rand poly n d mult
    (motive := fun l _ fs r => CzGood v P d l → fs.Valid F.P.toFavOps (polyVal v) →
      r.Valid F.P.toFavOps (polyVal v) ∧ r.denote (polyVal v) = fs.denote (polyVal v) * (l.map (polyVal v)).prod ^ mult) ?_ l pos fs r e hl hfs
  intro loop ih l pos fs r hr hl hfs
  obtain ⟨fs', rest, c1, c2, c3, c4, c5, c6, c7⟩ := h.czCollect P d mult hmult l fs hl hfs
  rw [c1] at hr
  simp only [Option.bind_eq_bind, Option.bind_some] at hr
  by_cases hem : rest.isEmpty = true
  · rw [if_pos hem] at hr
    cases hr
    rw [List.isEmpty_iff] at hem
    subst hem
    exact ⟨c2, by rw [← c4]; simp⟩
  · rw [if_neg hem] at hr
    obtain ⟨ls, l1, l2, l3, l4⟩ := h.czSplits P d (F.czG poly d ((List.range n).map fun i => rand (pos + i))) rest c3
    rw [l1] at hr
    simp only [Option.bind_some] at hr
    obtain ⟨r1, r2⟩ := ih _ _ _ _ hr l2 c2
    exact ⟨r1, by rw [r2, l3, c4]⟩

/-- one iteration of the loop -/
theorem FinFieldOps.Models.czLoop_step (rand : Nat → α) (poly : List α) (n d mult : Nat) (hmult : 0 < mult) (P : K[X])
    (l : List (List α)) (pos : Nat) (fs : Factored (List α)) (hl : CzGood v P d l) (hfs : fs.Valid F.P.toFavOps (polyVal v)) :
    (∃ r, F.czLoop rand poly n d mult l pos fs = some r) ∨
    ∃ l' fs', F.czLoop rand poly n d mult l pos fs = F.czLoop rand poly n d mult l' (pos + n) fs' ∧ CzGood v P d l' ∧
      fs'.Valid F.P.toFavOps (polyVal v) ∧ (∃ u ∈ l, (polyVal v u).natDegree ≠ d) ∧
      (czMeasure v l' < czMeasure v l ∨ (czMeasure v l' ≤ czMeasure v l ∧ ∀ u ∈ l, (polyVal v u).natDegree ≠ d →
        u ∈ l' ∧ ¬ Separates (polyVal v (F.czG poly d ((List.range n).map fun i => rand (pos + i)))) (polyVal v u))) := by
  obtain ⟨fs', rest, c1, c2, c3, c4, c5, c6, c7⟩ := h.czCollect P d mult hmult l fs hl hfs
  by_cases hem : rest.isEmpty = true
  · refine Or.inl ⟨fs', ?_⟩
    rw [FinFieldOps.czLoop]
    simp only [c1, hem, if_true, Option.bind_eq_bind, Option.bind_some]
  · obtain ⟨ls, l1, l2, l3, l4⟩ := h.czSplits P d (F.czG poly d ((List.range n).map fun i => rand (pos + i))) rest c3
    refine Or.inr ⟨ls.flatten, fs', ?_, l2, c2, ?_, ?_⟩
    · rw [FinFieldOps.czLoop]
      simp only [c1, hem, l1, Option.bind_eq_bind, Option.bind_some]
      rfl
    · obtain ⟨u, hu⟩ := List.exists_mem_of_ne_nil rest (fun e => hem (by rw [e]; rfl))
      exact ⟨u, (c5 u hu).1, (c5 u hu).2⟩
    · rcases l4 with ⟨l4, l5⟩ | l4
      · refine Or.inr ⟨by rw [l4]; exact c7, fun u hu hud => ⟨by rw [l4]; exact c6 u hu hud, l5 u (c6 u hu hud)⟩⟩
      · exact Or.inl (lt_of_lt_of_le l4 c7)


/-- the loop ends on every fair stream -/
theorem FinFieldOps.Models.czLoop_fair (rand : Nat → α) (hrand : FairStream v rand) (poly : List α) (n d mult : Nat) (hmult : 0 < mult)
    (hn : (polyVal v poly).natDegree = n) (hn0 : 0 < n) (hP : polyVal v poly ≠ 0) (hsq : Squarefree (polyVal v poly)) (m : Nat)
    (l : List (List α)) (k : Nat) (fs : Factored (List α)) (hm : czMeasure v l = m) (hl : CzGood v (polyVal v poly) d l)
    (hfs : fs.Valid F.P.toFavOps (polyVal v)) : ∃ r, F.czLoop rand poly n d mult l (k * n) fs = some r := by
  induction m using Nat.strong_induction_on generalizing l k fs with
  | _ m ih =>
    have inner : ∀ (j k : Nat) (l : List (List α)) (fs : Factored (List α)), czMeasure v l ≤ m → CzGood v (polyVal v poly) d l →
        fs.Valid F.P.toFavOps (polyVal v) → (∃ u ∈ l, (polyVal v u).natDegree ≠ d ∧
          Separates (polyVal v (F.czG poly d ((List.range n).map fun i => rand ((k + j) * n + i)))) (polyVal v u)) →
        ∃ r, F.czLoop rand poly n d mult l (k * n) fs = some r := by
      intro j
      induction j with
      | zero =>
        rintro k l fs hm hl hfs ⟨u, hu, hud, hsep⟩
        rcases h.czLoop_step rand poly n d mult hmult _ l (k * n) fs hl hfs with hr | ⟨l', fs', e, hl', hfs', -, hcase⟩
        · exact hr
        · rcases hcase with hlt | ⟨-, hcase⟩
          · rw [e, ← Nat.succ_mul]
            exact ih _ (lt_of_lt_of_le hlt hm) l' (k + 1) fs' rfl hl' hfs'
          · exact absurd hsep (hcase u hu hud).2
      | succ j ihj =>
        rintro k l fs hm hl hfs ⟨u, hu, hud, hsep⟩
        rcases h.czLoop_step rand poly n d mult hmult _ l (k * n) fs hl hfs with hr | ⟨l', fs', e, hl', hfs', -, hcase⟩
        · exact hr
        · rw [e, ← Nat.succ_mul]
          rcases hcase with hlt | ⟨hle, hcase⟩
          · exact ih _ (lt_of_lt_of_le hlt hm) l' (k + 1) fs' rfl hl' hfs'
          · refine ihj (k + 1) l' fs' (hle.trans hm) hl' hfs' ⟨u, (hcase u hu hud).1, hud, ?_⟩
            have : k + 1 + j = k + (j + 1) := by omega
            rw [this]; exact hsep
    rcases h.czLoop_step rand poly n d mult hmult _ l (k * n) fs hl hfs with hr | ⟨l', fs', -, -, -, ⟨u, hu, hud⟩, -⟩
    · exact hr
    · obtain ⟨gu, du⟩ := hl u hu
      obtain ⟨w, w1, w2⟩ := h.cz_word poly u d hP hsq gu du hud
      obtain ⟨k', hk', hw⟩ := hrand n hn0 (fun i => w.coeff i) k
      refine inner (k' - k) k l fs hm.le hl hfs ⟨u, hu, hud, w2 _ ?_⟩
      have e : k + (k' - k) = k' := by omega
      rw [e]
      rw [hn] at w1
      rw [← vecPoly_of_degree w w1]
      refine polyVal_ext v F.zero h.toDomain.toRing.toSemi.zero _ _ fun i => ?_
      by_cases hi : i < n
      · rw [List.getD_eq_getElem?_getD, List.getElem?_map, List.getElem?_range hi]
        exact (hw ⟨i, hi⟩).trans (coeff_vecPoly (fun i : Fin n => w.coeff i) ⟨i, hi⟩).symm
      · rw [List.getD_eq_getElem?_getD, List.getElem?_map, List.getElem?_eq_none (by simp; omega), coeff_vecPoly_ge _ _ (by omega)]
        exact h.toDomain.toRing.toSemi.zero

theorem DdFac.Valid.good {s : DdFac α} (hs : s.Valid v) (e : (Nat × List α) × Nat) (he : e ∈ s.factors) : DdGood v e.1 := by
  refine ⟨hs.monic e he, fun h1 => ?_, hs.degree e he⟩
  have := hs.nonconstant e he
  rw [h1] at this
  simp at this

theorem FinFieldOps.Models.czEntry (rand : Nat → α) (fs : Factored (List α)) (hfs : fs.Valid F.P.toFavOps (polyVal v))
    (e : (Nat × List α) × Nat) (he : DdGood v e.1) (hsq : Squarefree (polyVal v e.1.2)) (hpos : 0 < e.2) :
    (∀ r, F.czEntry rand fs e = some r → r.Valid F.P.toFavOps (polyVal v) ∧
      r.denote (polyVal v) = fs.denote (polyVal v) * polyVal v e.1.2 ^ e.2) ∧
    (FairStream v rand → ∃ r, F.czEntry rand fs e = some r) := by
  have hdeg := h.toDomain.toRing.toSemi.polyDegree_some e.1.2 he.1.ne_zero
  have hgood : CzGood v (polyVal v e.1.2) e.1.1 [e.1.2] := by
    intro u hu
    rw [List.mem_singleton] at hu
    subst hu
    exact ⟨he, dvd_rfl⟩
  have hd0 : e.1.1 ≠ 0 := by
    obtain ⟨π, hπ, hpd⟩ := exists_irreducible_dvd he.1 he.2.1
    rw [← he.2.2 π hπ hpd]
    exact hπ.natDegree_pos.ne'
  have hdvd : (polyVal v e.1.2).natDegree % e.1.1 = 0 := Nat.mod_eq_zero_of_dvd (dvd_natDegree_of_factors he.1.ne_zero he.2.2)
  have hunf : F.czEntry rand fs e = F.czLoop rand e.1.2 (polyVal v e.1.2).natDegree e.1.1 e.2 [e.1.2] (0 * (polyVal v e.1.2).natDegree) fs := by
    unfold FinFieldOps.czEntry
    simp only [hdeg, hd0, hdvd, assertThat, ne_eq, not_false_eq_true, decide_true, beq_self_eq_true, Bool.and_self, if_true,
      Option.bind_eq_bind, Option.bind_some, Nat.zero_mul]
  rw [hunf]
  refine ⟨fun r hr => ?_, fun hf => ?_⟩
  · have := h.czLoop_sound rand e.1.2 _ e.1.1 e.2 hpos (polyVal v e.1.2) _ _ fs r hr hgood hfs
    simpa using this
  · exact h.czLoop_fair rand hf e.1.2 _ e.1.1 e.2 hpos rfl (DdGood.natDegree_pos (d := e.1.1) he) he.1.ne_zero hsq _ _ 0 fs rfl hgood hfs

theorem FinFieldOps.Models.factorizeCz (rand : Nat → α) (s : DdFac α) (hs : s.Valid v) :
    (∀ r, F.factorizeCz rand s = some r → r.Valid F.P.toFavOps (polyVal v) ∧ r.denote (polyVal v) = s.denote v) ∧
    (FairStream v rand → ∃ r, F.factorizeCz rand s = some r) := by
  have main : ∀ (l : List ((Nat × List α) × Nat)) (acc : Factored (List α)), acc.Valid F.P.toFavOps (polyVal v) → (∀ e ∈ l, e ∈ s.factors) →
      (∀ r, l.foldlM (F.czEntry rand) acc = some r → r.Valid F.P.toFavOps (polyVal v) ∧
        r.denote (polyVal v) = acc.denote (polyVal v) * (l.map fun e => polyVal v e.1.2 ^ e.2).prod) ∧
      (FairStream v rand → ∃ r, l.foldlM (F.czEntry rand) acc = some r) := by
    intro l
    induction l with
    | nil =>
      intro acc hacc _
      exact ⟨fun r hr => by cases hr; exact ⟨hacc, by simp⟩, fun _ => ⟨acc, rfl⟩⟩
    | cons e l ih =>
      intro acc hacc hl
      have he := hl e (by simp)
      obtain ⟨c1, c2⟩ := h.czEntry rand acc hacc e (DdFac.Valid.good h hs e he) (hs.squarefree e he) (hs.pos e he)
      refine ⟨fun r hr => ?_, fun hf => ?_⟩
      · rw [List.foldlM_cons] at hr
        cases hc : F.czEntry rand acc e with
        | none => rw [hc] at hr; cases hr
        | some x =>
          rw [hc] at hr
          obtain ⟨x1, x2⟩ := c1 x hc
          obtain ⟨r1, r2⟩ := (ih x x1 fun e he => hl e (by simp [he])).1 r hr
          exact ⟨r1, by rw [r2, x2, List.map_cons, List.prod_cons, mul_assoc]⟩
      · obtain ⟨x, hx⟩ := c2 hf
        rw [List.foldlM_cons, hx]
        exact (ih x (c1 x hx).1 fun e he => hl e (by simp [he])).2 hf
  have hu : (Factored.factoredUnit (polyConst s.unit)).Valid F.P.toFavOps (polyVal v) := by
    refine ⟨?_, by simp [Factored.factoredUnit], by simp [Factored.factoredUnit], by simp [Factored.factoredUnit], by simp [Factored.factoredUnit]⟩
    change IsUnit (polyVal v (polyConst s.unit))
    rw [polyVal_const]
    exact isUnit_C.2 (IsUnit.mk0 _ hs.unit)
  obtain ⟨m1, m2⟩ := main s.factors _ hu fun e he => he
  refine ⟨fun r hr => ?_, m2⟩
  obtain ⟨r1, r2⟩ := m1 r hr
  refine ⟨r1, ?_⟩
  rw [r2]
  unfold DdFac.denote
  congr 1
  simp [Factored.denote, Factored.factoredUnit, polyVal_const]

end

end Verif.Rings
