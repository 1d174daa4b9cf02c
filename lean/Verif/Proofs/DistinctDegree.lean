import Verif.Proofs.PolyQuotient
import Verif.Proofs.PolyGcd
import Mathlib.FieldTheory.Finite.Extension

/-!
# Distinct degree factorization over a finite field
-/

namespace Verif.Rings

open Polynomial

section
variable {K : Type} [Field K]

theorem isPolyGcd_of_span {g a b : K[X]} (hs : Ideal.span {toFrac K g} = Ideal.span {toFrac K a, toFrac K b}) : IsPolyGcd g a b := by
  have e : ∀ p : K[X], toFrac K p = p := fun p => by
    unfold toFrac
    rw [Algebra.algebraMap_self, Polynomial.map_id]
  rw [e, e, e] at hs
  intro d
  rw [← Ideal.mem_span_singleton, ← Ideal.mem_span_singleton, ← Ideal.mem_span_singleton]
  rw [← Ideal.span_singleton_le_iff_mem, hs, Ideal.span_le]
  simp [Set.insert_subset_iff]

/-- coordinates of the `q`-th power -/
theorem frob_vec [Finite K] {f : K[X]} (hf : f ≠ 0) {n : Nat} (hn : f.natDegree = n) (q : Nat) (hq : Nat.card K = q) (a : K[X]) (i : Fin n) :
    ∑ j : Fin n, (X ^ ((j : Nat) * q) % f).coeff i * (a % f).coeff j = ((a ^ q) % f).coeff i := by
  have hdeg : (a % f).degree < n := by rw [← hn]; exact degree_mod_lt hf a
  have h1 : (a ^ q) % f = ((a % f) ^ q) % f := by
    apply mod_eq_of_dvd_sub
    exact (dvd_sub_polyMod a f).trans (sub_dvd_pow_sub_pow _ _ _)
  have h2 := vecPoly_pow_card (fun j : Fin n => (a % f).coeff j) q hq
  rw [vecPoly_of_degree _ hdeg] at h2
  have hsum : ∀ s : Finset (Fin n), (∑ j ∈ s, C ((a % f).coeff j) * X ^ ((j : Nat) * q)) % f
      = ∑ j ∈ s, C ((a % f).coeff j) * (X ^ ((j : Nat) * q) % f) := by
    intro s
    classical
    induction s using Finset.induction_on with
    | empty => simp
    | insert x s hx ih => rw [Finset.sum_insert hx, Finset.sum_insert hx, add_mod, ih, C_mul_polyMod hf]
  rw [h1, h2, hsum, finsetSum_coeff]
  refine Finset.sum_congr rfl fun j _ => ?_
  rw [coeff_C_mul, mul_comm]

end

section
variable {α K : Type} [Field K] {F : FinFieldOps α} {v : α → K} (h : F.Models v)
include h

theorem FinFieldOps.Models.ddGcd (f t : List α) (hf : polyVal v f ≠ 0) :
    ∃ g, F.ddGcd f t = some g ∧ (polyVal v g).Monic ∧ IsPolyGcd (polyVal v g) (polyVal v f) (polyVal v t - X) := by
  have hd := h.toDomain
  have hval : polyVal v (F.polyAdd t (F.polyNeg F.polyVar)) = polyVal v t - X := by
    rw [hd.toRing.toSemi.polyAdd, hd.toRing.polyNeg, hd.toRing.toSemi.polyVar, sub_eq_add_neg]
  have hG := hd.fieldEuc.bezout.toGcd
  obtain ⟨s, s1, s2⟩ : ∃ s, F.fieldEuc.bezout.polyGcdPrimSub f (F.polyAdd t (F.polyNeg F.polyVar)) = some s ∧
      IsPolyGcd (polyVal v s) (polyVal v f) (polyVal v t - X) := by
    by_cases h0 : polyVal v t - X = 0
    · refine ⟨f, (polyGcdPrimSub_zero hG f _).2 hf (by rw [hval]; exact h0), ?_⟩
      rw [h0]
      exact fun e => ⟨fun he => ⟨he, dvd_zero _⟩, fun he => he.1⟩
    · obtain ⟨s, s1, -, s3⟩ := polyGcdPrimSub_spec (K := K) hG f _ hf (by rw [hval]; exact h0)
      rw [hval] at s3
      exact ⟨s, s1, isPolyGcd_of_span s3⟩
  have hs0 : polyVal v s ≠ 0 := fun e => hf (zero_dvd_iff.1 (e ▸ ((s2 _).1 dvd_rfl).1))
  obtain ⟨w, w1, w2, w3⟩ := h.monicOf s hs0
  refine ⟨w, ?_, w2, fun e => ?_⟩
  · unfold FinFieldOps.ddGcd
    simp only [s1, w1, Option.bind_eq_bind, Option.bind_some]
  · rw [← s2, w3.dvd_iff_dvd_right]

theorem FinFieldOps.Models.pqRing_natPow (f : List α) (hf : polyVal v f ≠ 0) (a : List α) (n : Nat) :
    polyVal v f ∣ polyVal v ((F.pqRing f).natPow a n) - polyVal v a ^ n := by
  have hQ := (h.toDomain.polyEuc.quotientRing f hf).toSemi.natPow a n
  rw [← map_pow, quot_eq_iff] at hQ
  exact hQ

theorem FinFieldOps.Models.pqRing_equal (f : List α) (hf : polyVal v f ≠ 0) (a b : List α) :
    (F.pqRing f).equal a b = true ↔ polyVal v f ∣ polyVal v a - polyVal v b := by
  rw [← quot_eq_iff]
  exact (h.toDomain.polyEuc.quotientRing f hf).equal a b

theorem FinFieldOps.Models.frobMatrix (f : List α) (hf : polyVal v f ≠ 0) {n : Nat} (hn : (polyVal v f).natDegree = n) :
    ∃ m, F.frobMatrix f n = some m ∧ m.Denotes v (Matrix.of fun (i j : Fin n) => (X ^ ((j : Nat) * F.q) % polyVal v f).coeff i) := by
  have hcol : ∀ c : Nat, ∃ m, F.pqToCol f ((F.pqRing f).natPow (F.polyVarPow c) F.q) = some m ∧
      m.Denotes v (rowsMatrix [fun i : Fin n => (X ^ (c * F.q) % polyVal v f).coeff i]).transpose := by
    intro c
    obtain ⟨m, m1, m2⟩ := h.toDomain.pqToCol f ((F.pqRing f).natPow (F.polyVarPow c) F.q) hf hn
    refine ⟨m, m1, ?_⟩
    have e := h.pqRing_natPow f hf (F.polyVarPow c) F.q
    rw [h.toDomain.toRing.toSemi.polyVarPow, ← pow_mul] at e
    rw [mod_eq_of_dvd_sub e] at m2
    exact ⟨m2.rows, m2.cols, m2.length, fun i j => by
      obtain ⟨x, x1, x2⟩ := m2.entry i 0
      have hj : (j : Nat) = 0 := by have : (j : Nat) < 1 := j.2; omega
      refine ⟨x, by rw [hj]; exact x1, ?_⟩
      rw [x2]
      simp [rowsMatrix, Matrix.transpose_apply]⟩
  choose col c1 c2 using hcol
  have e1 : (List.range n).mapM (fun c => F.pqToCol f ((F.pqRing f).natPow (F.polyVarPow c) F.q)) = some ((List.range n).map col) :=
    mapM_eq_map _ fun j _ => c1 j
  have e2 : List.Forall₂ (fun m L => m.Denotes v (rowsMatrix L).transpose) ((List.range n).map col)
      ((List.range n).map fun c => [fun i : Fin n => (X ^ (c * F.q) % polyVal v f).coeff i]) := by
    rw [List.forall₂_map_left_iff, List.forall₂_map_right_iff, List.forall₂_same]
    exact fun c _ => c2 c
  obtain ⟨s, s1, s2⟩ := Mat.joinCols_spec e2
  refine ⟨s, ?_, ?_⟩
  · unfold FinFieldOps.frobMatrix
    simp only [e1, s1, Option.bind_eq_bind, Option.bind_some]
  · have hl : (((List.range n).map fun c => [fun i : Fin n => (X ^ (c * F.q) % polyVal v f).coeff i]).flatten)
        = (List.range n).map fun c => fun i : Fin n => (X ^ (c * F.q) % polyVal v f).coeff i := by
      generalize List.range n = l
      induction l with
      | nil => rfl
      | cons a l ih => simp only [List.map_cons, List.flatten_cons, ih]; rfl
    rw [hl] at s2
    refine ⟨s2.rows, by rw [s2.cols]; simp, s2.length, fun i j => ?_⟩
    obtain ⟨x, x1, x2⟩ := s2.entry i ⟨j, by simp⟩
    refine ⟨x, x1, ?_⟩
    rw [x2]
    simp [rowsMatrix, Matrix.transpose_apply]


theorem FinFieldOps.Models.card_q : Nat.card K = F.q := h.card

/-- one application of the `q`-th power map -/
theorem FinFieldOps.Models.frobStep (f : List α) (hf : polyVal v f ≠ 0) {n : Nat} (hn : (polyVal v f).natDegree = n) {frob : Mat α}
    (hfrob : frob.Denotes v (Matrix.of fun (i j : Fin n) => (X ^ ((j : Nat) * F.q) % polyVal v f).coeff i)) (a : List α) :
    ∃ col prod next, F.pqToCol f a = some col ∧ F.matMulUnwrap frob col = some prod ∧ F.pqFromCol f prod = some next ∧
      polyVal v next = polyVal v a ^ F.q % polyVal v f := by
  haveI := h.finite
  obtain ⟨col, c1, c2⟩ := h.toDomain.pqToCol f a hf hn
  obtain ⟨prod, p1, p2⟩ := h.toDomain.toRing.toSemi.matMulUnwrap hfrob c2
  obtain ⟨next, n1, n2⟩ := h.toDomain.pqFromCol f hf hn p2
  refine ⟨col, prod, next, c1, p1, n1, ?_⟩
  rw [n2]
  have : (fun i : Fin n => ((Matrix.of fun (i j : Fin n) => (X ^ ((j : Nat) * F.q) % polyVal v f).coeff i) *
      (Matrix.of fun (i : Fin n) (_ : Fin 1) => (polyVal v a % polyVal v f).coeff i)) i 0)
      = fun i : Fin n => (polyVal v a ^ F.q % polyVal v f).coeff i := by
    funext i
    rw [Matrix.mul_apply]
    exact frob_vec hf hn F.q h.card_q (polyVal v a) i
  rw [this]
  exact vecPoly_of_degree _ (by rw [← hn]; exact degree_mod_lt hf _)

/-- the invariant of an entry of the result -/
def DdGood {α K : Type} [Field K] (v : α → K) (e : Nat × List α) : Prop :=
  (polyVal v e.2).Monic ∧ polyVal v e.2 ≠ 1 ∧ ∀ π : K[X], Irreducible π → π ∣ polyVal v e.2 → π.natDegree = e.1

theorem FinFieldOps.Models.ddPush (i : Nat) (f g : List α) (acc : List (Nat × List α)) (hg : (polyVal v g).Monic)
    (hgf : polyVal v g ∣ polyVal v f) :
    ∃ f' acc', F.ddPush i f g acc = some (f', acc') ∧ polyVal v f = polyVal v f' * polyVal v g ∧
      ((polyVal v g = 1 ∧ acc' = acc) ∨ (polyVal v g ≠ 1 ∧ acc' = acc ++ [(i, g)])) := by
  unfold FinFieldOps.ddPush
  by_cases h1 : polyVal v g = 1
  · rw [if_pos ((h.polyEqOne g).2 h1)]
    exact ⟨f, acc, rfl, by rw [h1, mul_one], Or.inl ⟨h1, rfl⟩⟩
  · rw [if_neg (fun e => h1 ((h.polyEqOne g).1 e))]
    obtain ⟨q, q1, q2⟩ := h.pdiv f g hg.ne_zero hgf
    exact ⟨q, acc ++ [(i, g)], by rw [q1]; rfl, q2, Or.inr ⟨h1, rfl⟩⟩

theorem FinFieldOps.Models.ddLoop (poly : List α) (hsq : Squarefree (polyVal v poly)) (hpm : (polyVal v poly).Monic) {n : Nat}
    (hn : (polyVal v poly).natDegree = n) {frob : Mat α}
    (hfrob : frob.Denotes v (Matrix.of fun (i j : Fin n) => (X ^ ((j : Nat) * F.q) % polyVal v poly).coeff i))
    (k : Nat) (i : Nat) (xqi f : List α) (acc : List (Nat × List α)) (hk : n + 1 - i = k) (hi : 1 ≤ i)
    (hx : polyVal v poly ∣ polyVal v xqi - X ^ F.q ^ i) (hfm : (polyVal v f).Monic)
    (hprod : polyVal v f * (acc.map fun e => polyVal v e.2).prod = polyVal v poly)
    (hfi : ∀ π : K[X], Irreducible π → π ∣ polyVal v f → i ≤ π.natDegree)
    (hacc : ∀ e ∈ acc, DdGood v e ∧ e.1 < i) (hord : acc.Pairwise fun a b => a.1 < b.1) :
    ∃ i' f' acc', F.ddLoop poly frob i xqi f acc = some (f', acc') ∧ (polyVal v f').Monic ∧
      polyVal v f' * (acc'.map fun e => polyVal v e.2).prod = polyVal v poly ∧
      (∀ π : K[X], Irreducible π → π ∣ polyVal v f' → i' ≤ π.natDegree) ∧ (polyVal v f').natDegree < 2 * i' ∧
      (∀ e ∈ acc', DdGood v e ∧ e.1 < i') ∧ acc'.Pairwise fun a b => a.1 < b.1 := by
  have hd := h.toDomain
  have hp0 := hpm.ne_zero
  haveI := h.finite
  induction k using Nat.strong_induction_on generalizing i xqi f acc with
  | _ k ih =>
    have hfdeg := hd.toRing.toSemi.polyDegree_some f hfm.ne_zero
    have hfp : polyVal v f ∣ polyVal v poly := ⟨_, hprod.symm⟩
    have hfle : (polyVal v f).natDegree ≤ n := by rw [← hn]; exact natDegree_le_of_dvd hfp hp0
    by_cases hle : 2 * i ≤ (polyVal v f).natDegree
    · obtain ⟨g, g1, g2, g3⟩ := h.ddGcd f xqi hfm.ne_zero
      obtain ⟨gn, n1, n2, n3⟩ := h.ddGcd f (F.polyVarPow (F.q ^ i)) hfm.ne_zero
      rw [hd.toRing.toSemi.polyVarPow] at n3
      have g3' : IsPolyGcd (polyVal v g) (polyVal v f) (X ^ F.q ^ i - X) := by
        intro e
        rw [g3 e]
        refine and_congr_right fun he => ?_
        have h1 : e ∣ polyVal v xqi - X ^ F.q ^ i := (he.trans hfp).trans hx
        have h2 : polyVal v xqi - X = (polyVal v xqi - X ^ F.q ^ i) + (X ^ F.q ^ i - X) := by ring
        rw [h2, dvd_add_right h1]
      have hgn : polyVal v g = polyVal v gn := eq_of_monic_of_associated g2 n2
        (associated_of_dvd_dvd ((n3 _).2 ((g3' _).1 dvd_rfl)) ((g3' _).2 ((n3 _).1 dvd_rfl)))
      have hgf := ((g3 _).1 dvd_rfl).1
      obtain ⟨f', acc', p1, p2, p3⟩ := h.ddPush i f g acc g2 hgf
      obtain ⟨col, prod, next, c1, c2, c3, c4⟩ := h.frobStep poly hp0 hn hfrob xqi
      have hfm' : (polyVal v f').Monic := monic_left (by rw [← p2]; exact hfm) g2
      have hff' : polyVal v f' ∣ polyVal v f := ⟨_, p2⟩
      have hgirr : ∀ π : K[X], Irreducible π → (π ∣ polyVal v g ↔ π ∣ polyVal v f ∧ π.natDegree = i) := by
        intro π hπ
        rw [g3']
        refine and_congr_right fun hpf => ?_
        rw [← h.card_q, ← hπ.natDegree_dvd_iff_dvd_X_pow_card_pow_sub_X]
        constructor
        · intro hdv
          exact le_antisymm (Nat.le_of_dvd (by omega) hdv) (hfi π hπ hpf)
        · intro e; rw [e]
      have hsf : Squarefree (polyVal v f) := hsq.squarefree_of_dvd hfp
      obtain ⟨i', f'', acc'', r1, r2⟩ := ih (n + 1 - (i + 1)) (by omega) (i + 1) next f' acc' rfl (by omega)
        (by
          rw [c4]
          have e1 : polyVal v poly ∣ polyVal v xqi ^ F.q % polyVal v poly - polyVal v xqi ^ F.q := by
            have := dvd_sub_polyMod (polyVal v xqi ^ F.q) (polyVal v poly)
            rw [← dvd_neg] at this
            simpa using this
          have e2 : polyVal v poly ∣ polyVal v xqi ^ F.q - (X ^ F.q ^ i) ^ F.q := hx.trans (sub_dvd_pow_sub_pow _ _ _)
          rw [← pow_mul, ← pow_succ] at e2
          have := dvd_add e1 e2
          simpa using this)
        hfm'
        (by
          rcases p3 with ⟨h1, rfl⟩ | ⟨-, rfl⟩
          · rw [h1, mul_one] at p2; rw [← p2]; exact hprod
          · rw [List.map_append, List.prod_append, ← hprod, p2]
            simp only [List.map_cons, List.map_nil, List.prod_cons, List.prod_nil]
            ring)
        (by
          intro π hπ hpd
          have h1 := hfi π hπ (hpd.trans hff')
          rcases Nat.lt_or_ge i π.natDegree with h2 | h2
          · exact h2
          · exfalso
            have hpg := (hgirr π hπ).2 ⟨hpd.trans hff', by omega⟩
            have : π * π ∣ polyVal v f := by rw [p2]; exact mul_dvd_mul hpd hpg
            exact hπ.not_isUnit (hsf π this))
        (by
          rcases p3 with ⟨-, rfl⟩ | ⟨h1, rfl⟩
          · exact fun e he => ⟨(hacc e he).1, by have := (hacc e he).2; omega⟩
          · intro e he
            rw [List.mem_append, List.mem_singleton] at he
            rcases he with he | rfl
            · exact ⟨(hacc e he).1, by have := (hacc e he).2; omega⟩
            · exact ⟨⟨g2, h1, fun π hπ hpg => ((hgirr π hπ).1 hpg).2⟩, by simp⟩)
        (by
          rcases p3 with ⟨-, rfl⟩ | ⟨-, rfl⟩
          · exact hord
          · rw [List.pairwise_append]
            exact ⟨hord, by simp, fun a ha b hb => by
              rw [List.mem_singleton] at hb; subst hb; exact (hacc a ha).2⟩)
      refine ⟨i', f'', acc'', ?_, r2⟩
      rw [FinFieldOps.ddLoop]
      have m1 : F.polyIsMonic f = true := (hd.toRing.toSemi.polyIsMonic f one_ne_zero).2 hfm
      have m2 : F.polyIsMonic g = true := (hd.toRing.toSemi.polyIsMonic g one_ne_zero).2 g2
      have m3 : F.polyIsMonic gn = true := (hd.toRing.toSemi.polyIsMonic gn one_ne_zero).2 n2
      have m4 : F.polyEqual g gn = true := (hd.toRing.toSemi.polyEqual g gn).2 hgn
      have m5 : (F.pqRing poly).equal xqi (F.polyVarPow (F.q ^ i)) = true := by
        rw [h.pqRing_equal poly hp0, hd.toRing.toSemi.polyVarPow]; exact hx
      simp only [hfdeg, hle, g1, n1, m1, m2, m3, m4, m5, p1, c1, c2, c3, assertThat, if_true, Option.bind_eq_bind, Option.bind_some]
      exact r1
    · refine ⟨i, f, acc, ?_, hfm, hprod, hfi, by omega, hacc, hord⟩
      rw [FinFieldOps.ddLoop]
      simp only [hfdeg, hle, if_false, Option.bind_eq_bind, Option.bind_some]

theorem FinFieldOps.Models.ddPoly (poly : List α) (hsq : Squarefree (polyVal v poly)) (hpm : (polyVal v poly).Monic)
    (hdeg : 0 < (polyVal v poly).natDegree) :
    ∃ l, F.ddPoly poly = some l ∧ (l.map fun e => polyVal v e.2).prod = polyVal v poly ∧ (∀ e ∈ l, DdGood v e) ∧
      l.Pairwise fun a b => a.1 < b.1 := by
  have hd := h.toDomain
  have hp0 := hpm.ne_zero
  obtain ⟨frob, f1, f2⟩ := h.frobMatrix poly hp0 rfl
  have e0 := hd.toRing.toSemi.polyDegree_some poly hp0
  have hx := h.pqRing_natPow poly hp0 F.polyVar F.q
  rw [hd.toRing.toSemi.polyVar] at hx
  obtain ⟨i, f, acc, r1, r2, r3, r4, r5, r6, r7⟩ := h.ddLoop poly hsq hpm rfl f2 _ 1 ((F.pqRing poly).natPow F.polyVar F.q) poly [] rfl
    le_rfl (by rw [pow_one]; exact hx) hpm (by simp) (fun π hπ _ => hπ.natDegree_pos) (by simp) List.Pairwise.nil
  have hunf : F.ddPoly poly = F.ddLast (f, acc) := by
    unfold FinFieldOps.ddPoly
    have : 1 ≤ (polyVal v poly).natDegree := hdeg
    simp only [e0, this, f1, r1, assertThat, decide_true, if_true, Option.bind_eq_bind, Option.bind_some]
  rw [hunf]
  unfold FinFieldOps.ddLast
  by_cases h1 : polyVal v f = 1
  · rw [if_pos ((h.polyEqOne f).2 h1)]
    exact ⟨acc, rfl, by rw [h1, one_mul] at r3; exact r3, fun e he => (r6 e he).1, r7⟩
  · rw [if_neg (fun e => h1 ((h.polyEqOne f).1 e)), hd.toRing.toSemi.polyDegree_some f r2.ne_zero]
    have hirr : ∀ π : K[X], Irreducible π → π ∣ polyVal v f → π.natDegree = (polyVal v f).natDegree := by
      rintro π hπ ⟨t, ht⟩
      have ht0 : t ≠ 0 := by rintro rfl; rw [mul_zero] at ht; exact r2.ne_zero ht
      have hdeg := natDegree_mul hπ.ne_zero ht0
      rw [← ht] at hdeg
      by_cases hu : IsUnit t
      · rw [natDegree_eq_zero_of_isUnit hu] at hdeg; omega
      · obtain ⟨ρ, hρ, hρt⟩ := WfDvdMonoid.exists_irreducible_factor hu ht0
        have := r4 ρ hρ (hρt.trans ⟨π, by rw [ht, mul_comm]⟩)
        have h2 := r4 π hπ ⟨t, ht⟩
        have h3 := natDegree_le_of_dvd hρt ht0
        omega
    refine ⟨acc ++ [((polyVal v f).natDegree, f)], rfl, ?_, ?_, ?_⟩
    · rw [List.map_append, List.prod_append, ← r3]
      simp only [List.map_cons, List.map_nil, List.prod_cons, List.prod_nil]
      ring
    · intro e he
      rw [List.mem_append, List.mem_singleton] at he
      rcases he with he | rfl
      · exact (r6 e he).1
      · exact ⟨r2, h1, hirr⟩
    · rw [List.pairwise_append]
      refine ⟨r7, by simp, fun a ha b hb => ?_⟩
      rw [List.mem_singleton] at hb; subst hb
      obtain ⟨π, hπ, hpf⟩ := exists_irreducible_dvd r2 h1
      have h2 := r4 π hπ hpf
      rw [hirr π hπ hpf] at h2
      exact lt_of_lt_of_le (r6 a ha).2 h2


/-- the entries that come from one squarefree factor -/
theorem FinFieldOps.Models.ddEntries (fs : List (List α × Nat)) (hm : ∀ p ∈ fs, (polyVal v p.1).Monic)
    (hn : ∀ p ∈ fs, 0 < (polyVal v p.1).natDegree) (hs : ∀ p ∈ fs, Squarefree (polyVal v p.1)) :
    ∃ ls : List (List ((Nat × List α) × Nat)),
      fs.mapM (fun p => (F.ddPoly p.1).map fun l => l.map fun g => (g, p.2)) = some ls ∧
      List.Forall₂ (fun p l => (l.map fun e => polyVal v e.1.2 ^ e.2).prod = polyVal v p.1 ^ p.2 ∧
        (∀ e ∈ l, DdGood v e.1 ∧ e.2 = p.2 ∧ polyVal v e.1.2 ∣ polyVal v p.1) ∧ l.Pairwise fun a b => a.1.1 < b.1.1) fs ls := by
  induction fs with
  | nil => exact ⟨[], rfl, List.Forall₂.nil⟩
  | cons p fs ih =>
    obtain ⟨l, l1, l2, l3, l4⟩ := h.ddPoly p.1 (hs p (by simp)) (hm p (by simp)) (hn p (by simp))
    obtain ⟨ls, i1, i2⟩ := ih (fun p hp => hm p (by simp [hp])) (fun p hp => hn p (by simp [hp])) (fun p hp => hs p (by simp [hp]))
    refine ⟨(l.map fun g => (g, p.2)) :: ls, ?_, List.Forall₂.cons ⟨?_, ?_, ?_⟩ i2⟩
    · rw [List.mapM_cons, l1, i1]; rfl
    · rw [List.map_map, ← l2]
      have : ∀ l : List (Nat × List α), (l.map ((fun e : (Nat × List α) × Nat => polyVal v e.1.2 ^ e.2) ∘ fun g => (g, p.2))).prod
          = (l.map fun e => polyVal v e.2).prod ^ p.2 := by
        intro l
        induction l with
        | nil => simp
        | cons a l ih => simp only [List.map_cons, List.prod_cons, ih, mul_pow, Function.comp]
      exact this l
    · intro e he
      obtain ⟨g, hg, rfl⟩ := List.mem_map.1 he
      refine ⟨l3 g hg, rfl, ?_⟩
      rw [← l2]
      exact List.dvd_prod (List.mem_map.2 ⟨g, hg, rfl⟩)
    · rw [List.pairwise_map]; exact l4

theorem FinFieldOps.Models.factorizeDistinctDegree (s : SqFac α) (hs : s.Valid v) :
    ∃ d, F.factorizeDistinctDegree s = some d ∧ d.Valid v ∧ d.denote v = s.denote v := by
  obtain ⟨ls, e1, e2⟩ := h.ddEntries s.factors hs.monic hs.nonconstant hs.squarefree
  refine ⟨⟨s.unit, ls.flatten⟩, ?_, ?_, ?_⟩
  · unfold FinFieldOps.factorizeDistinctDegree
    simp only [e1, Option.bind_eq_bind, Option.bind_some]
  · have hmem : ∀ e ∈ ls.flatten, ∃ p ∈ s.factors, DdGood v e.1 ∧ e.2 = p.2 ∧ polyVal v e.1.2 ∣ polyVal v p.1 := by
      intro e he
      obtain ⟨l, hl, hel⟩ := List.mem_flatten.1 he
      obtain ⟨k, hk, rfl⟩ := List.getElem_of_mem hl
      have hk' : k < s.factors.length := by rw [e2.length_eq]; exact hk
      exact ⟨s.factors[k], List.getElem_mem hk', ((List.forall₂_iff_get.1 e2).2 k hk' hk).2.1 e hel⟩
    have hpos : ∀ e ∈ ls.flatten, 0 < (polyVal v e.1.2).natDegree := by
      intro e he
      obtain ⟨p, hp, hg, -, -⟩ := hmem e he
      exact Nat.pos_of_ne_zero fun h0 => hg.2.1 (hg.1.natDegree_eq_zero.1 h0)
    refine ⟨hs.unit, ?_, hpos, ?_, ?_, ?_, ?_⟩
    · intro e he; obtain ⟨p, hp, hg, -, -⟩ := hmem e he; exact hg.1
    · intro e he; obtain ⟨p, hp, -, -, hd⟩ := hmem e he; exact (hs.squarefree p hp).squarefree_of_dvd hd
    · intro e he; obtain ⟨p, hp, -, h2, -⟩ := hmem e he; simp only [h2]; exact hs.pos p hp
    · intro e he; obtain ⟨p, hp, hg, -, -⟩ := hmem e he; exact hg.2.2
    · have hcop := hs.coprime
      change ls.flatten.Pairwise _
      generalize s.factors = fs at e2 hcop
      clear e1 hmem hpos
      induction e2 with
      | nil => exact List.Pairwise.nil
      | @cons p l fs ls hpl hrest ih =>
        rw [List.pairwise_cons] at hcop
        rw [List.flatten_cons, List.pairwise_append]
        refine ⟨?_, ih hcop.2, ?_⟩
        · refine hpl.2.2.imp_of_mem fun {a b} ha hb hab => ?_
          have ga := (hpl.2.1 a ha).1
          have gb := (hpl.2.1 b hb).1
          refine isCoprime_of_irreducible_dvd (fun e => ga.1.ne_zero e.1) fun π hπ h1 h2 => ?_
          rw [← ga.2.2 π hπ h1, ← gb.2.2 π hπ h2] at hab
          exact lt_irrefl _ hab
        · intro a ha b hb
          obtain ⟨l', hl', hbl⟩ := List.mem_flatten.1 hb
          obtain ⟨k, hk, rfl⟩ := List.getElem_of_mem hl'
          have hk' : k < fs.length := by rw [hrest.length_eq]; exact hk
          have hb' := ((List.forall₂_iff_get.1 hrest).2 k hk' hk).2.1 b hbl
          exact ((hcop.1 _ (List.getElem_mem hk')).of_isCoprime_of_dvd_left (hpl.2.1 a ha).2.2).of_isCoprime_of_dvd_right hb'.2.2
  · unfold DdFac.denote SqFac.denote
    congr 1
    clear e1
    generalize s.factors = fs at e2
    induction e2 with
    | nil => rfl
    | cons hpl _ ih => simp only [List.flatten_cons, List.map_append, List.prod_append, List.map_cons, List.prod_cons, hpl.1, ih]

end

end Verif.Rings
