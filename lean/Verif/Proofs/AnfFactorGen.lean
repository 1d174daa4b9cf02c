import Verif.Proofs.AnfFactorRing

/-! The generator of `L`: its powers are a basis, its polynomial generates the relations. -/

namespace Verif.Anf
open Verif.Rings Polynomial

local notation "qp" => polyVal (id : ℚ → ℚ)

theorem mapM_some_getElem {β γ : Type} {f : β → Option γ} : ∀ {l : List β} {r : List γ}, l.mapM f = some r →
    List.Forall₂ (fun x y => f x = some y) l r := by
  intro l
  induction l with
  | nil => intro r e; cases e; exact .nil
  | cons x l ih =>
    intro r e
    rw [List.mapM_cons] at e
    simp only [Option.bind_eq_bind] at e
    obtain ⟨y, e1, e⟩ := Option.bind_eq_some_iff.1 e
    obtain ⟨ys, e2, e⟩ := Option.bind_eq_some_iff.1 e
    cases e
    exact .cons e1 (ih e2)

section
variable {f : List ℚ} [hirr : Fact (Irreducible (qp f))] {p : List (List ℚ)}

theorem rowEl_add_smul {n : Nat} (hp : polyVal (el f) p ≠ 0) (c : Fin n → ℚ) (A : Fin n → Fin ((polyVal (el f) p).natDegree * (qp f).natDegree) → ℚ) :
    rowEl hp (fun t => ∑ k, c k * A k t) = ∑ k, c k • rowEl hp (A k) := by
  unfold rowEl
  simp only [Finset.smul_sum, Finset.sum_smul]
  rw [Finset.sum_comm]
  refine Finset.sum_congr rfl fun t _ => Finset.sum_congr rfl fun k _ => ?_
  rw [mul_smul]

theorem rowEl_surj (hp : polyVal (el f) p ≠ 0) (l : AdjoinRoot (polyVal (el f) p)) : ∃ y, l = rowEl hp y :=
  ⟨(lBasis f p hp).repr l, ((lBasis f p hp).sum_repr l).symm⟩

theorem lPow_spec (hp : polyVal (el f) p ≠ 0) (alpha : List (List ℚ)) (k : Nat) : lval f p (lPow f p alpha k) = lval f p alpha ^ k := by
  induction k with
  | zero => rw [pow_zero]; exact (pqRing_models hp).toSemi.one
  | succ k ih => rw [pow_succ, ← ih]; exact (pqRing_models hp).toSemi.mul _ _

theorem alphaPowMat_spec (hp : polyVal (el f) p ≠ 0) {n : Nat} (hn : n = (polyVal (el f) p).natDegree * (qp f).natDegree)
    {alpha : List (List ℚ)} {m : Mat ℚ} (e : alphaPowMat f p (polyVal (el f) p).natDegree (qp f).natDegree n alpha = some m) :
    ∃ A : Fin n → Fin ((polyVal (el f) p).natDegree * (qp f).natDegree) → ℚ, m.Denotes (id : ℚ → ℚ) (Matrix.of A) ∧
      ∀ k : Fin n, lval f p alpha ^ (k : Nat) = rowEl hp (A k) := by
  unfold alphaPowMat at e
  simp only [Option.bind_eq_bind] at e
  obtain ⟨rows, e1, e2⟩ := Option.bind_eq_some_iff.1 e
  have h1 := mapM_some_getElem e1
  have hlen : rows.length = n := by rw [← h1.length_eq, List.length_range]
  have hrow : ∀ k : Fin n, lToVec f p (polyVal (el f) p).natDegree (qp f).natDegree (lPow f p alpha k) = some (rows[(k : Nat)]'(by omega)) := by
    intro k
    have := (List.forall₂_iff_get.1 h1).2 k (by simp) (by omega)
    simpa using this
  choose A hA1 hA2 using fun k : Fin n => lToVec_spec hp (hrow k)
  refine ⟨A, ?_, fun k => by rw [← lPow_spec hp, hA2]⟩
  obtain ⟨s, s1, s2⟩ := Mat.joinRows_spec (v := (id : ℚ → ℚ)) (mats := rows) (Ls := (List.ofFn A).map fun x => [x]) (by
    rw [List.forall₂_iff_get]
    refine ⟨by simp [hlen], fun i h1 h2 => ?_⟩
    have h3 : ((List.ofFn A).map fun x => [x]).get ⟨i, h2⟩ = [A ⟨i, by omega⟩] := by simp
    rw [h3]
    refine (hA1 ⟨i, by omega⟩).cast' rfl rfl fun a b => ?_
    obtain rfl : a = 0 := Subsingleton.elim _ _
    rfl)
  have hfl : ((List.ofFn A).map fun x => [x]).flatten = List.ofFn A := by
    generalize List.ofFn A = l
    induction l with
    | nil => rfl
    | cons x l ih => rw [List.map_cons, List.flatten_cons, ih]; rfl
  rw [hfl] at s2
  have e3 : m = s := by
    have : Mat.joinRows ((polyVal (el f) p).natDegree * (qp f).natDegree) rows = some m := by rw [← hn]; exact e2
    rw [s1] at this
    exact (Option.some.inj this).symm
  rw [e3]
  refine s2.cast' (by simp) rfl fun i j => ?_
  unfold rowsMatrix
  change ((List.ofFn A)[(i : Nat)]'(by simpa using i.2)) j = _
  rw [List.getElem_ofFn]
  rfl

theorem alphaSearch_spec (pDeg kDeg n : Nat) (rng : Nat → Nat → Nat → ℚ) (t : Nat) (r : List (List ℚ) × Mat ℚ)
    (e : alphaSearch f p pDeg kDeg n rng t = some r) :
    alphaPowMat f p pDeg kDeg n r.1 = some r.2 ∧ ratOps.fieldEuc.bezout.matRank r.2 = some n := by
  refine alphaSearch.partial_correctness f p pDeg kDeg n rng
    (motive := fun _ r => alphaPowMat f p pDeg kDeg n r.1 = some r.2 ∧ ratOps.fieldEuc.bezout.matRank r.2 = some n) ?_ t r e
  intro rec ih t r e
  simp only [Option.bind_eq_bind] at e
  obtain ⟨vec, -, e⟩ := Option.bind_eq_some_iff.1 e
  obtain ⟨back, -, e⟩ := Option.bind_eq_some_iff.1 e
  obtain ⟨_, -, e⟩ := Option.bind_eq_some_iff.1 e
  obtain ⟨m, e1, e⟩ := Option.bind_eq_some_iff.1 e
  obtain ⟨k, e2, e⟩ := Option.bind_eq_some_iff.1 e
  split at e
  · rename_i hk
    cases e
    exact ⟨e1, hk ▸ e2⟩
  · exact ih _ _ e

theorem ratBez : ratOps.fieldEuc.bezout.Models (id : ℚ → ℚ) := ratOps_models.fieldEuc.bezout

/-- what is known about the generator and the matrix of its powers -/
structure GenData (f : List ℚ) [hirr : Fact (Irreducible (qp f))] (p : List (List ℚ)) (hp : polyVal (el f) p ≠ 0) (n : Nat)
    (alpha : List (List ℚ)) (m : Mat ℚ) (A : Fin n → Fin ((polyVal (el f) p).natDegree * (qp f).natDegree) → ℚ) : Prop where
  hn : n = (polyVal (el f) p).natDegree * (qp f).natDegree
  den : m.Denotes (id : ℚ → ℚ) (Matrix.of A)
  pow : ∀ k : Fin n, lval f p alpha ^ (k : Nat) = rowEl hp (A k)
  li : LinearIndependent ℚ A

variable {hp : polyVal (el f) p ≠ 0} {n : Nat} {alpha : List (List ℚ)} {m : Mat ℚ}
  {A : Fin n → Fin ((polyVal (el f) p).natDegree * (qp f).natDegree) → ℚ}

theorem genData (hp : polyVal (el f) p ≠ 0) (hn : n = (polyVal (el f) p).natDegree * (qp f).natDegree)
    (e1 : alphaPowMat f p (polyVal (el f) p).natDegree (qp f).natDegree n alpha = some m)
    (e2 : ratOps.fieldEuc.bezout.matRank m = some n) : ∃ A, GenData f p hp n alpha m A := by
  obtain ⟨A, h1, h2⟩ := alphaPowMat_spec hp hn e1
  refine ⟨A, hn, h1, h2, ?_⟩
  obtain ⟨k, k1, -, k3⟩ := ratBez.matRank_rows h1
  rw [k1] at e2
  cases e2
  exact k3.1 rfl

theorem aeval_vecPoly {B : Type} [CommRing B] [Algebra ℚ B] (b : B) (c : Fin n → ℚ) : aeval b (vecPoly c) = ∑ k, c k • b ^ (k : Nat) := by
  unfold vecPoly
  rw [map_sum]
  refine Finset.sum_congr rfl fun k _ => ?_
  rw [map_mul, aeval_C, map_pow, aeval_X, Algebra.smul_def]

theorem GenData.surj (g : GenData f p hp n alpha m A) : Function.Surjective (aeval (lval f p alpha) : ℚ[X] →ₐ[ℚ] _) := by
  intro l
  obtain ⟨y, hy⟩ := rowEl_surj hp l
  have hsp : Submodule.span ℚ (Set.range A) = ⊤ := g.li.span_eq_top_of_card_eq_finrank' (by simp [← g.hn])
  have hy' : y ∈ Submodule.span ℚ (Set.range A) := by rw [hsp]; trivial
  obtain ⟨c, hc⟩ := (Submodule.mem_span_range_iff_exists_fun ℚ).1 hy'
  refine ⟨vecPoly c, ?_⟩
  rw [aeval_vecPoly, hy]
  have : y = fun t => ∑ k, c k * A k t := by
    rw [← hc]; funext t; simp
  rw [this, rowEl_add_smul]
  exact Finset.sum_congr rfl fun k _ => by rw [g.pow]

theorem finrank_L : Module.finrank ℚ (AdjoinRoot (polyVal (el f) p)) = (polyVal (el f) p).natDegree * (qp f).natDegree ∨ polyVal (el f) p = 0 := by
  by_cases hp : polyVal (el f) p = 0
  · exact Or.inr hp
  · left
    rw [Module.finrank_eq_card_basis (lBasis f p hp), Fintype.card_fin]

theorem GenData.ker (g : GenData f p hp n alpha m A) {q : ℚ[X]} (hq : q.Monic) (hd : q.natDegree = n) (h0 : aeval (lval f p alpha) q = 0) (r : ℚ[X]) :
    aeval (lval f p alpha) r = 0 ↔ q ∣ r := by
  constructor
  · intro hr
    rw [← modByMonic_eq_zero_iff_dvd hq]
    have e1 : aeval (lval f p alpha) (r %ₘ q) = 0 := by
      have := modByMonic_add_div r q
      rw [← this, map_add, map_mul, h0, zero_mul, add_zero] at hr
      exact hr
    have hdeg : (r %ₘ q).degree < n := by
      rw [← hd, ← degree_eq_natDegree hq.ne_zero]
      exact degree_modByMonic_lt _ hq
    rw [← vecPoly_of_degree _ hdeg] at e1 ⊢
    rw [aeval_vecPoly] at e1
    simp only [g.pow] at e1
    rw [← rowEl_add_smul] at e1
    have h2 : (fun t => ∑ k : Fin n, (r %ₘ q).coeff k * A k t) = 0 := by
      have := (lBasis f p hp).linearIndependent
      rw [Fintype.linearIndependent_iff] at this
      funext t
      exact this _ e1 t
    have h3 := Fintype.linearIndependent_iff.1 g.li (fun k => (r %ₘ q).coeff k) (by
      rw [← h2]; funext t; simp)
    have : (fun k : Fin n => (r %ₘ q).coeff k) = 0 := funext h3
    rw [this]
    unfold vecPoly
    simp
  · rintro ⟨s, rfl⟩
    rw [map_mul, h0, zero_mul]

theorem rowToPoly_spec {mm : Mat ℚ} {Y : Matrix (Fin 1) (Fin n) ℚ} (hm : mm.Denotes (id : ℚ → ℚ) Y) {g : List ℚ} (e : rowToPoly n mm = some g) :
    qp g = vecPoly fun i => Y 0 i := by
  have hget := fun c : Fin n => hm.get 0 c
  choose x hx1 hx2 using hget
  unfold rowToPoly at e
  have hm := mapM_range_ofFn (f := fun c => mm.get 0 c) hx1
  rw [hm] at e
  cases e
  refine polyVal_ext (id : ℚ → ℚ) 0 rfl _ _ fun i => ?_
  by_cases hi : i < n
  · rw [List.getD_eq_getElem?_getD, List.getElem?_ofFn]
    simp only [hi, dif_pos, Option.getD_some]
    rw [hx2 ⟨i, hi⟩]
    exact (coeff_vecPoly (fun i => Y 0 i) ⟨i, hi⟩).symm
  · rw [List.getD_eq_getElem?_getD, List.getElem?_ofFn]
    simp only [hi, dif_neg, Option.getD_none, not_false_eq_true]
    rw [coeff_vecPoly_ge _ _ (by omega)]; rfl

theorem GenData.solve (g : GenData f p hp n alpha m A) {x : List (List ℚ)} {vec s : Mat ℚ} {r : List ℚ}
    (e1 : lToVec f p (polyVal (el f) p).natDegree (qp f).natDegree x = some vec)
    (e2 : (ratOps.fieldEuc.bezout.rowSolve m vec).bind id = some s) (e3 : rowToPoly n s = some r) :
    (qp r).degree < n ∧ aeval (lval f p alpha) (qp r) = lval f p x := by
  obtain ⟨y, y1, y2⟩ := lToVec_spec hp e1
  rcases ratBez.rowSolve g.den y1 with ⟨s', X, h1, h2, h3⟩ | ⟨h1, -⟩
  · rw [h1] at e2
    cases e2
    rw [rowToPoly_spec h2 e3]
    refine ⟨vecPoly_degree _, ?_⟩
    rw [aeval_vecPoly, y2]
    have : y = fun t => ∑ k, X 0 k * A k t := by
      funext t
      have := congrFun (congrFun h3 0) t
      rw [Matrix.mul_apply] at this
      exact this.symm
    rw [this, rowEl_add_smul]
    exact Finset.sum_congr rfl fun k _ => by rw [g.pow]
  · rw [h1] at e2; cases e2

theorem GenData.lToLa (g : GenData f p hp n alpha m A) {x : List (List ℚ)} {r : List ℚ}
    (e : lToLa f p (polyVal (el f) p).natDegree (qp f).natDegree n m x = some r) : aeval (lval f p alpha) (qp r) = lval f p x := by
  unfold Anf.lToLa at e
  simp only [Option.bind_eq_bind] at e
  obtain ⟨vec, e1, e⟩ := Option.bind_eq_some_iff.1 e
  obtain ⟨s, e2, e3⟩ := Option.bind_eq_some_iff.1 e
  exact (g.solve e1 e2 e3).2

theorem GenData.poly (g : GenData f p hp n alpha m A) {q : List ℚ}
    (e : alphaPoly f p (polyVal (el f) p).natDegree (qp f).natDegree n alpha m = some q) :
    (qp q).Monic ∧ (qp q).natDegree = n ∧ aeval (lval f p alpha) (qp q) = 0 := by
  unfold alphaPoly at e
  simp only [Option.bind_eq_bind] at e
  obtain ⟨vec, e1, e⟩ := Option.bind_eq_some_iff.1 e
  obtain ⟨s, e2, e⟩ := Option.bind_eq_some_iff.1 e
  obtain ⟨q', e3, e⟩ := Option.bind_eq_some_iff.1 e
  obtain ⟨_, -, e⟩ := Option.bind_eq_some_iff.1 e
  cases e
  obtain ⟨h1, h2⟩ := g.solve e1 e2 e3
  rw [(pqRing_models hp).toSemi.natPow] at h2
  have hv : qp (ratOps.polyAdd (ratOps.polyVarPow n) (ratOps.polyNeg q')) = X ^ n - qp q' := by
    rw [ratOps_models.toRing.toSemi.polyAdd, ratOps_models.toRing.toSemi.polyVarPow, ratOps_models.toRing.polyNeg, sub_eq_add_neg]
  rw [hv]
  refine ⟨by rw [sub_eq_add_neg]; exact monic_X_pow_add (by rw [degree_neg]; exact h1), by
    rw [sub_eq_add_neg]
    have h := degree_add_eq_left_of_degree_lt (p := (X : ℚ[X]) ^ n) (q := -qp q') (by rw [degree_neg, degree_X_pow]; exact h1)
    rw [degree_X_pow] at h
    exact natDegree_eq_of_degree_eq_some h, ?_⟩
  rw [map_sub, map_pow, aeval_X, h2, sub_self]

end
end Verif.Anf
