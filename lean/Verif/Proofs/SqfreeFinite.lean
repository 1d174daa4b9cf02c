import Verif.Spec.FinitePoly
import Verif.Proofs.PolyMult
import Verif.Proofs.PolyGcd
import Verif.Proofs.FiniteField
import Verif.Props.Polynomial
import Mathlib.Algebra.BigOperators.Group.List.Basic

/-!
# Squarefree factorization over a field with `p` elements
-/

namespace Verif.Rings

open Polynomial

section
variable {α K : Type} [Field K] {F : FinFieldOps α} {v : α → K} (h : F.Models v)
include h

theorem FinFieldOps.Models.pgcd (a b : List α) (hab : polyVal v a ≠ 0 ∨ polyVal v b ≠ 0) :
    ∃ g, F.pgcd a b = some g ∧ (polyVal v g).Monic ∧ IsPolyGcd (polyVal v g) (polyVal v a) (polyVal v b) := by
  obtain ⟨g, h1, h2, h3, h4, s, t, h5⟩ := C61_field_gcd_monic h.toDomain a b (by tauto)
  refine ⟨g, h1, h2, fun e => ⟨fun he => ⟨he.trans h3, he.trans h4⟩, fun he => ?_⟩⟩
  rw [h5]
  exact dvd_add (he.1.mul_left _) (he.2.mul_left _)

theorem FinFieldOps.Models.pdiv (a b : List α) (hb : polyVal v b ≠ 0) (hd : polyVal v b ∣ polyVal v a) :
    ∃ q, F.pdiv a b = some q ∧ polyVal v a = polyVal v q * polyVal v b := by
  rcases h.toDomain.polyDiv_cases a b with ⟨h1, -⟩ | ⟨-, q, h1, h2⟩ | ⟨-, h1, -⟩
  · exact absurd h1 hb
  · exact ⟨q, by rw [FinFieldOps.pdiv, h1]; rfl, h2⟩
  · exact absurd hd h1

theorem FinFieldOps.Models.polyOne : polyVal v F.P.one = 1 := by
  have := h.toDomain.toRing.toSemi.poly.one
  exact this

theorem FinFieldOps.Models.polyEqOne (a : List α) : F.polyEqual a F.P.one = true ↔ polyVal v a = 1 := by
  rw [h.toDomain.toRing.toSemi.polyEqual, h.polyOne]

theorem FinFieldOps.Models.sqNew (g : List α) (hg : (polyVal v g).Monic) :
    ∃ u fs, F.sqNew g = some ⟨u, fs⟩ ∧ v u = 1 ∧ ((polyVal v g = 1 ∧ fs = []) ∨ (polyVal v g ≠ 1 ∧ fs = [(g, 1)])) := by
  have hz : F.P.isZero g = false := by
    have := h.toDomain.toRing.toSemi.poly.isZero g
    cases hc : F.P.isZero g with
    | false => rfl
    | true => exact absurd (this.1 hc) hg.ne_zero
  have hd := h.toDomain.toRing.toSemi.polyDegree_some g hg.ne_zero
  unfold FinFieldOps.sqNew
  simp only [hz, Bool.not_false, assertThat, if_true, Option.bind_eq_bind, Option.bind_some]
  rw [hd]
  simp only [Option.bind_some]
  unfold FinFieldOps.sqNewDeg
  by_cases h0 : (polyVal v g).natDegree = 0
  · rw [if_pos h0]
    have h1 : polyVal v g = 1 := hg.natDegree_eq_zero.1 h0
    obtain ⟨u, hu, hu2⟩ := h.toDomain.toRing.toSemi.polyAsConstant_some g 1 (by rw [h1, map_one])
    refine ⟨u, [], by rw [hu]; rfl, ?_, Or.inl ⟨h1, rfl⟩⟩
    exact hu2
  · rw [if_neg h0]
    exact ⟨_, _, rfl, h.toDomain.toRing.toSemi.one, Or.inr ⟨fun e => h0 (by rw [e, natDegree_one]), rfl⟩⟩

end

/-- the factors with the multiplicities they have in `M` -/
def SqGood {α K : Type} [Field K] (v : α → K) (M : K[X]) (l : List (List α × Nat)) : Prop :=
  (∀ q ∈ l, (polyVal v q.1).Monic ∧ polyVal v q.1 ≠ 1 ∧ 0 < q.2 ∧
    ∀ π : K[X], Irreducible π → multiplicity π (polyVal v q.1) = if multiplicity π M = q.2 then 1 else 0) ∧ (l.map Prod.snd).Nodup

section
variable {α K : Type} [Field K] {F : FinFieldOps α} {v : α → K}

theorem exists_irreducible_dvd {g : K[X]} (hg : g.Monic) (h1 : g ≠ 1) : ∃ π : K[X], Irreducible π ∧ π ∣ g :=
  WfDvdMonoid.exists_irreducible_factor (fun hu => h1 (hg.eq_one_of_isUnit hu)) hg.ne_zero

theorem SqGood.append {M : K[X]} {l l' : List (List α × Nat)} (h : SqGood v M (l ++ l')) : SqGood v M l ∧ SqGood v M l' := by
  obtain ⟨h1, h2⟩ := h
  rw [List.map_append, List.nodup_append] at h2
  exact ⟨⟨fun q hq => h1 q (by simp [hq]), h2.1⟩, ⟨fun q hq => h1 q (by simp [hq]), h2.2.1⟩⟩

theorem SqGood.eq_of {M : K[X]} {l : List (List α × Nat)} (h : SqGood v M l) {a b : List α × Nat} (ha : a ∈ l) (hb : b ∈ l)
    (e : polyVal v a.1 = polyVal v b.1) : a.2 = b.2 := by
  obtain ⟨a1, a2, a3, a4⟩ := h.1 a ha
  obtain ⟨b1, b2, b3, b4⟩ := h.1 b hb
  obtain ⟨π, hπ, hd⟩ := exists_irreducible_dvd a1 a2
  have e1 := a4 π hπ
  have e2 := b4 π hπ
  rw [← e] at e2
  have := (mult_pos_iff hπ a1.ne_zero).2 hd
  split at e1 <;> split at e2 <;> omega

theorem sqMulOne_append (h : F.Models v) {M : K[X]} (l : List (List α × Nat)) (q : List α × Nat) (hg : SqGood v M (l ++ [q])) :
    F.sqMulOne q l = l ++ [q] := by
  induction l with
  | nil => rfl
  | cons s l ih =>
    have hne : ¬ F.polyEqual q.1 s.1 = true := by
      rw [h.toDomain.toRing.toSemi.polyEqual]
      intro e
      have := hg.eq_of (a := q) (b := s) (by simp) (by simp) e
      have h2 := hg.2
      simp only [List.cons_append, List.map_cons, List.nodup_cons, List.map_append, List.mem_append, List.map_nil, List.mem_singleton] at h2
      exact h2.1 (Or.inr this.symm)
    rw [FinFieldOps.sqMulOne, if_neg hne, ih]
    · rfl
    · exact (SqGood.append (l := [s]) (l' := l ++ [q]) hg).2

theorem sqMul_append (h : F.Models v) {M : K[X]} (f g : SqFac α) (hg : SqGood v M (f.factors ++ g.factors)) :
    F.sqMul f g = ⟨F.mul f.unit g.unit, f.factors ++ g.factors⟩ := by
  unfold FinFieldOps.sqMul
  congr 1
  obtain ⟨u, l⟩ := f
  obtain ⟨u', l'⟩ := g
  simp only at hg ⊢
  clear u u'
  induction l' generalizing l with
  | nil => simp
  | cons q l' ih =>
    have e : l ++ q :: l' = (l ++ [q]) ++ l' := by simp
    rw [e] at hg ⊢
    rw [List.foldl_cons, sqMulOne_append h l q hg.append.1]
    exact ih _ hg

/-- the loop invariant -/
def SqInv (p : Nat) (M : K[X]) (i : Nat) (w c : K[X]) : Prop :=
  w.Monic ∧ c.Monic ∧ ∀ π : K[X], Irreducible π →
    (p ∣ multiplicity π M → multiplicity π w = 0 ∧ multiplicity π c = multiplicity π M) ∧
    (¬ p ∣ multiplicity π M → i ≤ multiplicity π M → multiplicity π w = 1 ∧ multiplicity π c = multiplicity π M - i) ∧
    (¬ p ∣ multiplicity π M → multiplicity π M < i → multiplicity π w = 0 ∧ multiplicity π c = 0)

theorem monic_left {a b : K[X]} (h : (a * b).Monic) (hb : b.Monic) : a.Monic := hb.of_mul_monic_right h

theorem sqLoop_spec (h : F.Models v) {p : Nat} {M : K[X]} (n : Nat) (w c : List α) (i : Nat) (fs : SqFac α)
    (hn : (polyVal v w).natDegree + (polyVal v c).natDegree = n) (hi : 0 < i)
    (hinv : SqInv p M i (polyVal v w) (polyVal v c)) (hg : SqGood v M fs.factors) (hlt : ∀ q ∈ fs.factors, q.2 < i) :
    ∃ c' fs' L, F.sqLoop w c i fs = some (c', fs') ∧ v fs'.unit = v fs.unit ∧ fs'.factors = fs.factors ++ L ∧
      SqGood v M fs'.factors ∧ (∀ q ∈ L, i ≤ q.2 ∧ ¬ p ∣ q.2) ∧
      (∀ π : K[X], Irreducible π → i ≤ multiplicity π M → ¬ p ∣ multiplicity π M → ∃ q ∈ L, q.2 = multiplicity π M) ∧
      (polyVal v c').Monic ∧
      (∀ π : K[X], Irreducible π → multiplicity π (polyVal v c') = if p ∣ multiplicity π M then multiplicity π M else 0) := by
  induction n using Nat.strong_induction_on generalizing w c i fs with
  | _ n ih =>
    obtain ⟨hw, hc, hinv⟩ := hinv
    rw [FinFieldOps.sqLoop]
    by_cases h1 : polyVal v w = 1
    · rw [if_pos ((h.polyEqOne w).2 h1)]
      have hm : ∀ π : K[X], Irreducible π → ¬ p ∣ multiplicity π M → multiplicity π M < i := by
        intro π hπ hp
        by_contra hc'
        have := ((hinv π hπ).2.1 hp (by omega)).1
        rw [h1, mult_one hπ] at this
        omega
      refine ⟨c, fs, [], rfl, rfl, by simp, hg, by simp, ?_, hc, ?_⟩
      · intro π hπ h2 h3
        exact absurd (hm π hπ h3) (by omega)
      · intro π hπ
        split
        · rename_i hp; exact ((hinv π hπ).1 hp).2
        · rename_i hp; exact ((hinv π hπ).2.2 hp (hm π hπ hp)).2
    · rw [if_neg (fun e => h1 ((h.polyEqOne w).1 e))]
      obtain ⟨y, y1, y2, y3⟩ := h.pgcd w c (Or.inl hw.ne_zero)
      obtain ⟨hyw, hyc⟩ := (y3 _).1 dvd_rfl
      obtain ⟨wy, wy1, wy2⟩ := h.pdiv w y y2.ne_zero hyw
      obtain ⟨cy, cy1, cy2⟩ := h.pdiv c y y2.ne_zero hyc
      have hwym : (polyVal v wy).Monic := monic_left (wy2 ▸ hw) y2
      have hcym : (polyVal v cy).Monic := monic_left (cy2 ▸ hc) y2
      obtain ⟨u, gf, g1, g2, g3⟩ := h.sqNew wy hwym
      simp only [y1, wy1, g1, cy1, Option.bind_eq_bind, Option.bind_some]
      have mw : ∀ π : K[X], Irreducible π → multiplicity π (polyVal v w) = multiplicity π (polyVal v wy) + multiplicity π (polyVal v y) :=
        fun π hπ => by rw [wy2, mult_mul hπ hwym.ne_zero y2.ne_zero]
      have mc : ∀ π : K[X], Irreducible π → multiplicity π (polyVal v c) = multiplicity π (polyVal v cy) + multiplicity π (polyVal v y) :=
        fun π hπ => by rw [cy2, mult_mul hπ hcym.ne_zero y2.ne_zero]
      have my : ∀ π : K[X], Irreducible π → multiplicity π (polyVal v y) = min (multiplicity π (polyVal v w)) (multiplicity π (polyVal v c)) :=
        fun π hπ => y3.mult hπ hw.ne_zero hc.ne_zero
      have mwy : ∀ π : K[X], Irreducible π → multiplicity π (polyVal v wy) = if ¬ p ∣ multiplicity π M ∧ multiplicity π M = i then 1 else 0 := by
        intro π hπ
        have e1 := mw π hπ
        have e2 := my π hπ
        obtain ⟨i1, i2, i3⟩ := hinv π hπ
        by_cases hp : p ∣ multiplicity π M
        · rw [if_neg (by tauto)]; have := i1 hp; omega
        · by_cases hlt' : i ≤ multiplicity π M
          · have := i2 hp hlt'
            split <;> omega
          · have := i3 hp (by omega)
            rw [if_neg (by omega)]; omega
      -- the factor of multiplicity `i`
      have hdvd : polyVal v wy ≠ 1 → ¬ p ∣ i := by
        intro hne hp
        obtain ⟨π, hπ, hd⟩ := exists_irreducible_dvd hwym hne
        have e1 := mwy π hπ
        have e2 := (mult_pos_iff hπ hwym.ne_zero).2 hd
        split at e1
        · rename_i hh; rw [hh.2] at hh; exact hh.1 hp
        · omega
      have hgf : ∀ q ∈ (SqFac.pow ⟨u, gf⟩ i).factors, q.2 = i ∧ ¬ p ∣ q.2 ∧ q.1 = wy ∧ polyVal v wy ≠ 1 := by
        intro q hq
        rcases g3 with ⟨e1, e2⟩ | ⟨e1, e2⟩
        · subst e2; simp [SqFac.pow] at hq
        · subst e2
          simp [SqFac.pow] at hq
          subst hq
          exact ⟨rfl, hdvd e1, rfl, e1⟩
      have hgf2 : polyVal v wy ≠ 1 → (wy, i) ∈ (SqFac.pow ⟨u, gf⟩ i).factors := by
        intro hne
        rcases g3 with ⟨e1, e2⟩ | ⟨e1, e2⟩
        · exact absurd e1 hne
        · subst e2; simp [SqFac.pow]
      have hgfn : ((SqFac.pow ⟨u, gf⟩ i).factors.map Prod.snd).Nodup := by
        rcases g3 with ⟨e1, e2⟩ | ⟨e1, e2⟩ <;> subst e2 <;> simp [SqFac.pow]
      have hgood : SqGood v M (fs.factors ++ (SqFac.pow ⟨u, gf⟩ i).factors) := by
        constructor
        · intro q hq
          rcases List.mem_append.1 hq with hq | hq
          · exact hg.1 q hq
          · obtain ⟨q1, q2, q3, q4⟩ := hgf q hq
            rw [q3, q1]
            rw [q1] at q2
            refine ⟨hwym, q4, hi, fun π hπ => ?_⟩
            rw [mwy π hπ]
            by_cases hm : multiplicity π M = i
            · rw [if_pos ⟨by rwa [hm], hm⟩, if_pos hm]
            · rw [if_neg (by tauto), if_neg hm]
        · rw [List.map_append, List.nodup_append]
          refine ⟨hg.2, hgfn, ?_⟩
          rintro a ha b hb rfl
          obtain ⟨q, hq, rfl⟩ := List.mem_map.1 ha
          obtain ⟨q', hq', e⟩ := List.mem_map.1 hb
          have := hlt q hq
          have := (hgf q' hq').1
          omega
      rw [sqMul_append h _ _ hgood]
      have hdeg : (polyVal v y).natDegree + (polyVal v cy).natDegree < n := by
        rw [← hn, cy2, natDegree_mul hcym.ne_zero y2.ne_zero]
        have : 0 < (polyVal v w).natDegree := by
          by_contra hc'
          exact h1 (hw.natDegree_eq_zero.1 (by omega))
        omega
      obtain ⟨c', fs', L, r1, r2, r3, r4, r5, r6, r7, r8⟩ := ih _ hdeg y cy (i + 1)
        ⟨F.mul fs.unit u, fs.factors ++ (SqFac.pow ⟨u, gf⟩ i).factors⟩ rfl (by omega) ⟨y2, hcym, by
          intro π hπ
          have e1 := mw π hπ
          have e2 := my π hπ
          have e3 := mc π hπ
          obtain ⟨i1, i2, i3⟩ := hinv π hπ
          refine ⟨fun hp => ?_, fun hp hm => ?_, fun hp hm => ?_⟩
          · have := i1 hp; omega
          · have := i2 hp (by omega); omega
          · by_cases hlt' : i ≤ multiplicity π M
            · have := i2 hp hlt'; omega
            · have := i3 hp (by omega); omega⟩ hgood (by
          intro q hq
          rcases List.mem_append.1 hq with hq | hq
          · have := hlt q hq; omega
          · have := (hgf q hq).1; omega)
      refine ⟨c', fs', (SqFac.pow ⟨u, gf⟩ i).factors ++ L, r1, ?_, by rw [r3]; simp, r4, ?_, ?_, r7, r8⟩
      · rw [r2]; simp only; rw [h.toDomain.toRing.toSemi.mul, g2, mul_one]
      · intro q hq
        rcases List.mem_append.1 hq with hq | hq
        · obtain ⟨q1, q2, -, -⟩ := hgf q hq; exact ⟨by omega, q2⟩
        · have := r5 q hq; exact ⟨by omega, this.2⟩
      · intro π hπ h2 h3
        by_cases hm : multiplicity π M = i
        · have hne : polyVal v wy ≠ 1 := by
            intro e
            have := mwy π hπ
            rw [if_pos ⟨h3, hm⟩, e, mult_one hπ] at this
            omega
          exact ⟨_, List.mem_append_left _ (hgf2 hne), hm.symm⟩
        · obtain ⟨q, hq, e⟩ := r6 π hπ (by omega) h3
          exact ⟨q, List.mem_append_right _ hq, e⟩

/-- the coefficients at multiples of `p` -/
theorem rootCoeffs_spec (h : F.Models v) (c : List α) (hz : ∀ k, ¬ F.charPow.1 ∣ k → (polyVal v c).coeff k = 0) :
    ∃ r, F.rootCoeffs c = some r ∧ polyVal v r = contract F.charPow.1 (polyVal v c) ∧
      c.length ≤ r.length * F.charPow.1 ∧ r.length * F.charPow.1 < c.length + F.charPow.1 := by
  have hp := h.prime.pos
  induction c using List.reverseRecOn with
  | nil => exact ⟨[], rfl, by ext n; simp [coeff_contract hp.ne'], by simp, by simpa using hp⟩
  | append_singleton l a ih =>
    have hco : ∀ k, (polyVal v (l ++ [a])).coeff k = (polyVal v l).coeff k + if k = l.length then v a else 0 := by
      intro k
      rw [polyVal_append, coeff_add, coeff_X_pow_mul']
      simp only [polyVal_cons, polyVal_nil, mul_zero, add_zero, coeff_C]
      congr 1
      by_cases hk : k = l.length
      · simp [hk]
      · rw [if_neg hk]
        split
        · rw [if_neg (by omega)]
        · rfl
    have hl : ∀ k, l.length ≤ k → (polyVal v l).coeff k = 0 := fun k hk => coeff_polyVal_ge v l k hk
    obtain ⟨r, r1, r2, r3, r4⟩ := ih (by
      intro k hk
      by_cases hkl : k < l.length
      · have := hz k hk
        rwa [hco, if_neg (by omega), add_zero] at this
      · exact hl k (by omega))
    have e : F.rootCoeffs (l ++ [a]) = F.rootStep r (l.length, a) := by
      unfold FinFieldOps.rootCoeffs at r1 ⊢
      rw [List.length_append, List.length_singleton, List.range_succ, List.zip_append (by simp), List.foldlM_append, r1]
      simp
    rw [e, FinFieldOps.rootStep]
    by_cases hd : F.charPow.1 ∣ l.length
    · rw [if_pos (Nat.mod_eq_zero_of_dvd hd)]
      obtain ⟨m, hm⟩ := hd
      have hrm : r.length = m := by
        rw [hm, mul_comm F.charPow.1 m] at r3 r4
        have a1 := Nat.le_of_mul_le_mul_right r3 hp
        have : r.length * F.charPow.1 < (m + 1) * F.charPow.1 := by rw [add_mul, one_mul]; exact r4
        have a2 := Nat.lt_of_mul_lt_mul_right this
        omega
      refine ⟨r ++ [a], rfl, ?_, ?_, ?_⟩
      · rw [polyVal_append, r2]
        ext n
        rw [coeff_contract hp.ne', hco, coeff_add, coeff_contract hp.ne', coeff_X_pow_mul']
        congr 1
        simp only [polyVal_cons, polyVal_nil, mul_zero, add_zero, coeff_C]
        by_cases hn : n = m
        · rw [if_pos (by omega), if_pos (by omega), if_pos (by rw [hn, hm, mul_comm])]
        · rw [if_neg (c := n * F.charPow.1 = l.length) (by
            rw [hm, mul_comm]; exact fun e => hn (Nat.eq_of_mul_eq_mul_left hp e))]
          split
          · rw [if_neg (by omega)]
          · rfl
      · simp only [List.length_append, List.length_singleton]; rw [hrm, add_mul, one_mul, hm, mul_comm m]; omega
      · simp only [List.length_append, List.length_singleton]; rw [hrm, add_mul, one_mul, hm, mul_comm m]; omega
    · rw [if_neg (fun e => hd (Nat.dvd_of_mod_eq_zero e))]
      have ha : v a = 0 := by
        have := hz l.length hd
        rwa [hco, if_pos rfl, hl _ le_rfl, zero_add] at this
      have hza : F.isZero a = true := (h.toDomain.toRing.toSemi.isZero a).2 ha
      refine ⟨r, by simp [assertThat, hza], ?_, ?_, ?_⟩
      · rw [r2]
        congr 1
        ext k
        rw [hco, ha, ite_self, add_zero]
      · simp only [List.length_append, List.length_singleton]
        rcases Nat.lt_or_ge l.length (r.length * F.charPow.1) with h' | h'
        · omega
        · exact absurd (⟨r.length, by rw [mul_comm]; omega⟩ : F.charPow.1 ∣ l.length) hd
      · simp only [List.length_append, List.length_singleton]; omega

/-- the factors determine the polynomial -/
theorem SqGood.mult_prod {M : K[X]} {l : List (List α × Nat)} (hg : SqGood v M l) {π : K[X]} (hπ : Irreducible π) :
    (l.map fun q => polyVal v q.1 ^ q.2).prod.Monic ∧
    multiplicity π (l.map fun q => polyVal v q.1 ^ q.2).prod = if multiplicity π M ∈ l.map Prod.snd then multiplicity π M else 0 := by
  induction l with
  | nil => simp [mult_one hπ]
  | cons q l ih =>
    have hq := hg.1 q (by simp)
    obtain ⟨ih1, ih2⟩ := ih (SqGood.append (l := [q]) (l' := l) hg).2
    have hnd := hg.2
    rw [List.map_cons, List.nodup_cons] at hnd
    rw [List.map_cons, List.prod_cons]
    refine ⟨(hq.1.pow _).mul ih1, ?_⟩
    rw [mult_mul hπ (hq.1.pow _).ne_zero ih1.ne_zero, mult_pow hπ hq.1.ne_zero, hq.2.2.2 π hπ, ih2, List.map_cons]
    by_cases e : multiplicity π M = q.2
    · rw [if_pos e, if_neg (by rw [e]; exact hnd.1), if_pos (by simp [e])]; omega
    · rw [if_neg e]
      simp only [List.mem_cons, e, false_or, mul_zero, zero_add]

/-- the valid factorization that the multiplicities describe -/
theorem SqGood.valid {M : K[X]} (hM : M.Monic) (s : SqFac α) (hu : v s.unit ≠ 0) (hg : SqGood v M s.factors)
    (hall : ∀ π : K[X], Irreducible π → 0 < multiplicity π M → ∃ q ∈ s.factors, q.2 = multiplicity π M) :
    s.Valid v ∧ s.denote v = C (v s.unit) * M := by
  have hprod : (s.factors.map fun q => polyVal v q.1 ^ q.2).prod = M := by
    have hmon : (s.factors.map fun q => polyVal v q.1 ^ q.2).prod.Monic := by
      rw [← Multiset.prod_coe, ← Multiset.map_coe]
      exact monic_multiset_prod_of_monic _ _ fun q hq => (hg.1 q (by simpa using hq)).1.pow _
    refine eq_of_mult hmon hM fun π hπ => ?_
    rw [(hg.mult_prod hπ).2]
    split
    · rfl
    · rename_i hn
      by_contra hc
      obtain ⟨q, hq, e⟩ := hall π hπ (Nat.pos_of_ne_zero fun e => hc e.symm)
      exact hn (List.mem_map.2 ⟨q, hq, e⟩)
  refine ⟨⟨hu, fun q hq => (hg.1 q hq).1, ?_, ?_, fun q hq => (hg.1 q hq).2.2.1, ?_, hg.2⟩, by rw [SqFac.denote, hprod]⟩
  · intro q hq
    obtain ⟨h1, h2, -⟩ := hg.1 q hq
    by_contra hc
    exact h2 (h1.natDegree_eq_zero.1 (by omega))
  · intro q hq
    obtain ⟨h1, -, -, h4⟩ := hg.1 q hq
    refine squarefree_of_mult h1.ne_zero fun π hπ => ?_
    rw [h4 π hπ]; split <;> omega
  · have hnd := hg.2
    rw [List.nodup_iff_pairwise_ne, List.pairwise_map] at hnd
    refine hnd.imp_of_mem ?_
    intro a b ha hb hne
    obtain ⟨a1, -, -, a4⟩ := hg.1 a ha
    obtain ⟨b1, -, -, b4⟩ := hg.1 b hb
    refine isCoprime_of_mult a1.ne_zero b1.ne_zero fun π hπ => ?_
    rw [a4 π hπ, b4 π hπ]
    by_cases e : multiplicity π M = a.2
    · right; rw [if_neg (by omega)]
    · left; rw [if_neg e]

theorem factorizeSquarefree_spec (h : F.Models v) (n : Nat) (m : MonicFac α) (hn : (polyVal v m.monic).natDegree = n)
    (hu : v m.unit ≠ 0) (hm : (polyVal v m.monic).Monic)
    (hk : F.charPow.2 = 1 ∨ ∀ π : K[X], Irreducible π → π ∣ polyVal v m.monic → ¬ F.charPow.1 ∣ multiplicity π (polyVal v m.monic)) :
    ∃ s, F.factorizeSquarefree m = some s ∧ v s.unit = v m.unit ∧ SqGood v (polyVal v m.monic) s.factors ∧
      ∀ π : K[X], Irreducible π → 0 < multiplicity π (polyVal v m.monic) → ∃ q ∈ s.factors, q.2 = multiplicity π (polyVal v m.monic) := by
  haveI := h.char
  haveI := h.finite
  haveI : Fact F.charPow.1.Prime := ⟨h.prime⟩
  have hp := h.prime
  induction n using Nat.strong_induction_on generalizing m with
  | _ n ih =>
    set M := polyVal v m.monic with hM
    rw [FinFieldOps.factorizeSquarefree]
    have e0 : F.sqUnit m.unit = some ⟨m.unit, []⟩ := by
      unfold FinFieldOps.sqUnit
      have := h.toDomain.isUnit m.unit
      rw [this, @decide_eq_true _ (Classical.propDecidable _) hu.isUnit]
      rfl
    obtain ⟨c, c1, c2, c3⟩ := h.pgcd m.monic (F.polyDerivative m.monic) (Or.inl hm.ne_zero)
    rw [h.toDomain.toRing.toSemi.polyDerivative, ← hM] at c3
    obtain ⟨w, w1, w2⟩ := h.pdiv m.monic c c2.ne_zero ((c3 _).1 dvd_rfl).1
    rw [← hM] at w2
    have hwm : (polyVal v w).Monic := monic_left (w2 ▸ hm) c2
    simp only [e0, c1, w1, Option.bind_eq_bind, Option.bind_some]
    have mc := fun (π : K[X]) (hπ : Irreducible π) => mult_gcd_derivative F.charPow.1 hm.ne_zero c3 hπ
    have mw : ∀ π : K[X], Irreducible π → multiplicity π M = multiplicity π (polyVal v w) + multiplicity π (polyVal v c) :=
      fun π hπ => by rw [w2, mult_mul hπ hwm.ne_zero c2.ne_zero]
    obtain ⟨c', fs', L, r1, r2, r3, r4, r5, r6, r7, r8⟩ := sqLoop_spec h (p := F.charPow.1) (M := M) _ w c 1 ⟨m.unit, []⟩ rfl one_pos
      ⟨hwm, c2, fun π hπ => by
        have e1 := mc π hπ
        have e2 := mw π hπ
        refine ⟨fun hd => ?_, fun hd hi => ?_, fun hd hi => ?_⟩
        · rw [if_pos hd] at e1; omega
        · rw [if_neg hd] at e1; omega
        · exact absurd (by rw [Nat.lt_one_iff.1 hi]; exact dvd_zero _) hd⟩
      ⟨by simp, by simp⟩ (by simp)
    rw [r1]
    simp only [Option.bind_some]
    simp only [List.nil_append] at r3
    by_cases h1 : polyVal v c' = 1
    · rw [if_pos ((h.polyEqOne c').2 h1)]
      refine ⟨fs', rfl, r2, r4, fun π hπ hpos => ?_⟩
      by_cases hd : F.charPow.1 ∣ multiplicity π M
      · have := r8 π hπ
        rw [if_pos hd, h1, mult_one hπ] at this
        omega
      · obtain ⟨q, hq, e⟩ := r6 π hπ hpos hd
        exact ⟨q, by rw [r3]; exact hq, e⟩
    · have hk1 : F.charPow.2 = 1 := by
        refine hk.resolve_right fun hk => h1 (eq_of_mult r7 monic_one fun π hπ => ?_)
        rw [r8 π hπ, mult_one hπ]
        split
        · rename_i hd
          by_contra hne
          exact hk π hπ ((mult_pos_iff hπ hm.ne_zero).1 (Nat.pos_of_ne_zero hne)) hd
        · rfl
      have hcard : Nat.card K = F.charPow.1 := by rw [h.card, hk1, pow_one]
      rw [if_neg (fun e => h1 ((h.polyEqOne c').1 e))]
      have hder : derivative (polyVal v c') = 0 := by
        refine derivative_eq_zero_of_mult F.charPow.1 r7.ne_zero fun π hπ => ?_
        rw [r8 π hπ]
        split
        · assumption
        · exact dvd_zero _
      have hroot := contract_pow_card F.charPow.1 hp.ne_zero hcard hder
      obtain ⟨r, q1, q2, -, -⟩ := rootCoeffs_spec h c' (by
        intro k hk'
        have := expand_contract F.charPow.1 hder hp.ne_zero
        rw [← this, coeff_expand hp.pos, if_neg hk'])
      rw [← q2] at hroot
      have hr0 : polyVal v r ≠ 0 := by
        intro e
        rw [e, zero_pow hp.ne_zero] at hroot
        exact r7.ne_zero hroot.symm
      have hrm : (polyVal v r).Monic := by
        rw [q2]
        have e := expand_contract F.charPow.1 hder hp.ne_zero
        have := r7
        rw [← e, monic_expand_iff hp.pos] at this
        exact this
      have e3 : F.newMonic r = some ⟨F.one, r⟩ := by
        unfold FinFieldOps.newMonic
        have : F.polyIsMonic r = true := (h.toDomain.toRing.toSemi.polyIsMonic r one_ne_zero).2 hrm
        simp [this, assertThat]
      have hmc : ∀ π : K[X], Irreducible π → multiplicity π (polyVal v c') = F.charPow.1 * multiplicity π (polyVal v r) :=
        fun π hπ => by rw [← hroot, mult_pow hπ hr0]
      have hdeg : (polyVal v r).natDegree < n := by
        have a1 : (polyVal v c').natDegree = F.charPow.1 * (polyVal v r).natDegree := by rw [← hroot, natDegree_pow]
        have a2 : 0 < (polyVal v c').natDegree := by
          by_contra hc'
          exact h1 (r7.natDegree_eq_zero.1 (by omega))
        have a3 : (polyVal v c').natDegree ≤ n := by
          rw [← hn]
          refine natDegree_le_of_dvd (dvd_of_mult_le r7.ne_zero hm.ne_zero fun π hπ => ?_) hm.ne_zero
          rw [r8 π hπ]; split <;> omega
        have a4 := hp.two_le
        have a5 : 0 < (polyVal v r).natDegree := Nat.pos_of_ne_zero fun e => by rw [e, mul_zero] at a1; omega
        nlinarith
      obtain ⟨s, s1, s2, s3, s4⟩ := ih _ hdeg ⟨F.one, r⟩ rfl (by rw [h.toDomain.toRing.toSemi.one]; exact one_ne_zero) hrm (Or.inl hk1)
      simp only at s2 s3 s4
      simp only [q1, e3, s1, Option.bind_some]
      -- the multiplicities in the root
      have hmr : ∀ π : K[X], Irreducible π → ∀ e, 0 < e → (multiplicity π (polyVal v r) = e ↔ multiplicity π M = e * F.charPow.1) := by
        intro π hπ e he
        have b1 := r8 π hπ
        rw [hmc π hπ] at b1
        constructor
        · intro hh
          rw [hh] at b1
          split at b1
          · rw [← b1, mul_comm]
          · have := Nat.mul_pos hp.pos he; omega
        · intro hh
          rw [if_pos (by rw [hh]; exact dvd_mul_left _ _), hh, mul_comm] at b1
          exact Nat.eq_of_mul_eq_mul_right hp.pos b1
      have hgood : SqGood v M (fs'.factors ++ (s.pow F.charPow.1).factors) := by
        constructor
        · intro q hq
          rcases List.mem_append.1 hq with hq | hq
          · exact r4.1 q hq
          · obtain ⟨t, ht, rfl⟩ := List.mem_map.1 hq
            obtain ⟨t1, t2, t3, t4⟩ := s3.1 t ht
            refine ⟨t1, t2, Nat.mul_pos t3 hp.pos, fun π hπ => ?_⟩
            rw [t4 π hπ]
            simp only [hmr π hπ t.2 t3]
        · rw [List.map_append, List.nodup_append]
          refine ⟨r4.2, ?_, ?_⟩
          · rw [SqFac.pow, List.map_map]
            have : (Prod.snd ∘ fun p : List α × Nat => (p.1, p.2 * F.charPow.1)) = (fun e => e * F.charPow.1) ∘ Prod.snd := rfl
            rw [this, ← List.map_map]
            exact s3.2.map fun a b hab => Nat.eq_of_mul_eq_mul_right hp.pos hab
          · rintro a ha b hb rfl
            obtain ⟨q, hq, rfl⟩ := List.mem_map.1 ha
            obtain ⟨q', hq', e⟩ := List.mem_map.1 hb
            obtain ⟨t, ht, rfl⟩ := List.mem_map.1 hq'
            rw [r3] at hq
            exact (r5 q hq).2 (by rw [← e]; exact dvd_mul_left _ _)
      rw [sqMul_append h _ _ hgood]
      refine ⟨_, rfl, ?_, hgood, fun π hπ hpos => ?_⟩
      · simp only [SqFac.pow]
        rw [h.toDomain.toRing.toSemi.mul, s2, h.toDomain.toRing.toSemi.one, mul_one, r2]
      · by_cases hd : F.charPow.1 ∣ multiplicity π M
        · obtain ⟨e, he⟩ := hd
          have hepos : 0 < e := Nat.pos_of_ne_zero fun e0 => by rw [e0, mul_zero] at he; omega
          have e1 := (hmr π hπ e hepos).2 (by rw [he, mul_comm])
          obtain ⟨q, hq, e2⟩ := s4 π hπ (by omega)
          refine ⟨(q.1, q.2 * F.charPow.1), List.mem_append_right _ (List.mem_map.2 ⟨q, hq, rfl⟩), ?_⟩
          simp only
          rw [e2, e1, he, mul_comm]
        · obtain ⟨q, hq, e⟩ := r6 π hπ hpos hd
          exact ⟨q, List.mem_append_left _ (by rw [r3]; exact hq), e⟩

end

end Verif.Rings
