import Verif.Proofs.AnfFactorGen

/-! The factor of `p` that belongs to a factor of the polynomial of the generator. -/

namespace Verif.Anf
open Verif.Rings Polynomial

local notation "qp" => polyVal (id : ℚ → ℚ)

theorem joinRows_rows {n c : Nat} {rows : List (Mat ℚ)} {m : Mat ℚ} (A : Fin n → Fin c → ℚ) (hlen : rows.length = n)
    (hA : ∀ k : Fin n, (rows[(k : Nat)]'(by omega)).Denotes (id : ℚ → ℚ) (Matrix.of fun (_ : Fin 1) t => A k t))
    (e : Mat.joinRows c rows = some m) : m.Denotes (id : ℚ → ℚ) (Matrix.of A) := by
  obtain ⟨s, s1, s2⟩ := Mat.joinRows_spec (v := (id : ℚ → ℚ)) (mats := rows) (Ls := (List.ofFn A).map fun x => [x]) (by
    rw [List.forall₂_iff_get]
    refine ⟨by simp [hlen], fun i h1 h2 => ?_⟩
    have h3 : ((List.ofFn A).map fun x => [x]).get ⟨i, h2⟩ = [A ⟨i, by omega⟩] := by simp
    rw [h3]
    refine (hA ⟨i, by omega⟩).cast' rfl rfl fun a b => ?_
    obtain rfl : a = 0 := Subsingleton.elim _ _
    rfl)
  have hfl : ((List.ofFn A).map fun x => [x]).flatten = List.ofFn A := by
    generalize List.ofFn A = l
    induction l with
    | nil => rfl
    | cons x l ih => rw [List.map_cons, List.flatten_cons, ih]; rfl
  rw [hfl] at s2
  rw [s1] at e
  cases e
  refine s2.cast' (by simp) rfl fun i j => ?_
  unfold rowsMatrix
  change ((List.ofFn A)[(i : Nat)]'(by simpa using i.2)) j = _
  rw [List.getElem_ofFn]
  rfl

theorem sum_double {M : Type} [AddCommMonoid M] {d k : Nat} (hk : 0 < k) (F : Nat → Nat → Nat → M) :
    ∑ t : Fin (d * k), F (t / k) (t % k) t = ∑ i : Fin d, ∑ j : Fin k, F i j (i * k + j) := by
  rw [← finProdFinEquiv.sum_comp, Fintype.sum_prod_type]
  refine Finset.sum_congr rfl fun i _ => Finset.sum_congr rfl fun j _ => ?_
  have h1 : ((finProdFinEquiv (i, j) : Fin _) : Nat) = (j : Nat) + k * i := rfl
  rw [h1, Nat.add_mul_div_left _ _ hk, Nat.div_eq_of_lt j.2, zero_add, Nat.add_mul_mod_self_left, Nat.mod_eq_of_lt j.2]
  congr 1
  ring

theorem rowToDoublePoly_spec {outer inner : Nat} {m : Mat ℚ} {N : Nat} {Y : Matrix (Fin 1) (Fin N) ℚ} (hN : N = outer * inner)
    (hm : m.Denotes (id : ℚ → ℚ) Y) {a : List (List ℚ)} (e : rowToDoublePoly outer inner m = some a) :
    a = List.ofFn fun i : Fin outer => List.ofFn fun j : Fin inner => Y 0 ⟨i * inner + j, by
      rw [hN]; have := i.2; have := j.2; nlinarith⟩ := by
  unfold rowToDoublePoly at e
  simp only [Option.bind_eq_bind] at e
  obtain ⟨_, -, e⟩ := Option.bind_eq_some_iff.1 e
  obtain ⟨_, -, e⟩ := Option.bind_eq_some_iff.1 e
  have h1 : ∀ i : Fin outer, ((List.range inner).mapM fun j => m.get 0 (i * inner + j)) = some (List.ofFn fun j : Fin inner => Y 0 ⟨i * inner + j, by
      rw [hN]; have := i.2; have := j.2; nlinarith⟩) := by
    intro i
    refine mapM_range_ofFn fun j => ?_
    obtain ⟨x, h1, h2⟩ := hm.get 0 ⟨i * inner + j, by rw [hN]; have := i.2; have := j.2; nlinarith⟩
    rw [← h2]
    exact h1
  rw [mapM_range_ofFn h1] at e
  exact (Option.some.inj e).symm

theorem polyVal_ofFn' {α R : Type} [CommRing R] (v : α → R) {n : Nat} (g : Fin n → α) : polyVal v (List.ofFn g) = ∑ i : Fin n, C (v (g i)) * X ^ (i : Nat) := by
  induction n with
  | zero => simp
  | succ n ih =>
    rw [List.ofFn_succ, polyVal_cons, ih, Fin.sum_univ_succ, Finset.mul_sum]
    simp only [Fin.val_zero, pow_zero, mul_one, Fin.val_succ]
    congr 1
    exact Finset.sum_congr rfl fun i _ => by ring

section
variable {f : List ℚ} [hirr : Fact (Irreducible (qp f))] {p : List (List ℚ)} {hp : polyVal (el f) p ≠ 0} {n : Nat} {alpha : List (List ℚ)} {m : Mat ℚ}
  {A : Fin n → Fin ((polyVal (el f) p).natDegree * (qp f).natDegree) → ℚ}

theorem polyVal_negs (f : List ℚ) (l : List (List ℚ)) : polyVal (el f) (l.map ratOps.polyNeg) = - polyVal (el f) l := by
  induction l with
  | nil => simp [polyVal]
  | cons c l ih =>
    rw [List.map_cons, polyVal_cons, polyVal_cons, ih]
    have : el f (ratOps.polyNeg c) = - el f c := by
      unfold el
      rw [ratOps_models.toRing.polyNeg, map_neg]
    rw [this, C_neg]
    ring

theorem el_ofFn {k : Nat} (y : Fin k → ℚ) : el f (List.ofFn y) = ∑ j : Fin k, y j • (AdjoinRoot.root (qp f)) ^ (j : Nat) := by
  unfold el
  rw [polyVal_ofFn', map_sum]
  refine Finset.sum_congr rfl fun j _ => ?_
  rw [map_mul, map_pow, AdjoinRoot.mk_X, Algebra.smul_def]
  rfl

theorem pqToRow_spec (qi a : List ℚ) (hq : qp qi ≠ 0) {N : Nat} (hN : (qp qi).natDegree = N) {r : Mat ℚ} (e : ratOps.pqToRow qi a = some r) :
    ∃ y : Fin N → ℚ, r.Denotes (id : ℚ → ℚ) (Matrix.of fun (_ : Fin 1) t => y t) ∧ el qi a = AdjoinRoot.mk _ (vecPoly y) := by
  obtain ⟨c, c1, c2⟩ := ratOps_models.pqToCol qi a hq hN
  unfold DomainOps.pqToRow at e
  rw [c1] at e
  cases e
  refine ⟨fun t => (qp a % qp qi).coeff t, c2.transposed, ?_⟩
  rw [vecPoly_of_degree _ (by rw [← hN]; exact degree_mod_lt hq _)]
  unfold el
  rw [← sub_eq_zero, ← map_sub, AdjoinRoot.mk_eq_zero]
  exact ⟨qp a / qp qi, sub_eq_of_eq_add (EuclideanDomain.div_add_mod (qp a) (qp qi)).symm⟩

/-- the solution of the linear system gives a relation in `ℚ[y]/(qi)` -/
theorem relation (qi x gen : List ℚ) (hq : qp qi ≠ 0) {d k : Nat} (hk : 0 < k) (hN : (qp qi).natDegree = d * k) {rows : List (Mat ℚ)} {mat vec s : Mat ℚ}
    (e1 : (laiBasis k d gen x qi).mapM (ratOps.pqToRow qi) = some rows) (e2 : Mat.joinRows (d * k) rows = some mat)
    (e3 : ratOps.pqToRow qi ((ratOps.pqRing qi).natPow x d) = some vec) (e4 : (ratOps.fieldEuc.bezout.rowSolve mat vec).bind id = some s) :
    ∃ X : Matrix (Fin 1) (Fin (d * k)) ℚ, s.Denotes (id : ℚ → ℚ) X ∧
      qp qi ∣ qp x ^ d - ∑ t : Fin (d * k), C (X 0 t) * (qp x ^ ((t : Nat) / k) * qp gen ^ ((t : Nat) % k)) := by
  have hR : (ratOps.pqRing qi).Models (el qi) := ratOps_models.polyEuc.quotientRing qi hq
  unfold laiBasis at e1
  rw [flatMap_range d k hk] at e1
  have h1 := mapM_some_getElem e1
  have hlen : rows.length = d * k := by rw [← h1.length_eq]; simp
  have hrow : ∀ t : Fin (d * k), ratOps.pqToRow qi ((ratOps.pqRing qi).mul ((ratOps.pqRing qi).natPow x ((t : Nat) / k))
      ((ratOps.pqRing qi).natPow gen ((t : Nat) % k))) = some (rows[(t : Nat)]'(by omega)) := by
    intro t
    have := (List.forall₂_iff_get.1 h1).2 t (by simp) (by omega)
    simpa using this
  choose B hB1 hB2 using fun t : Fin (d * k) => pqToRow_spec qi _ hq hN (hrow t)
  have hmat := joinRows_rows B hlen hB1 e2
  obtain ⟨w, w1, w2⟩ := pqToRow_spec qi _ hq hN e3
  rcases ratBez.rowSolve hmat w1 with ⟨s', X, h1, h2, h3⟩ | ⟨h1, -⟩
  · rw [h1] at e4
    cases e4
    refine ⟨X, h2, ?_⟩
    rw [← AdjoinRoot.mk_eq_zero, map_sub, sub_eq_zero, map_sum, map_pow]
    rw [hR.toSemi.natPow] at w2
    refine Eq.trans w2 ?_
    have hw : w = ∑ t, X 0 t • B t := by
      funext i
      have := congrFun (congrFun h3 0) i
      rw [Matrix.mul_apply] at this
      rw [Finset.sum_apply]
      exact this.symm
    rw [hw, vecPoly_sum, map_sum]
    refine Finset.sum_congr rfl fun t _ => ?_
    rw [vecPoly_smul, map_mul, ← hB2, map_mul, hR.toSemi.mul, hR.toSemi.natPow, hR.toSemi.natPow, map_mul, map_pow, map_pow]
    rfl
  · rw [h1] at e4; cases e4

theorem GenData.reducedFactor (g : GenData f p hp n alpha m A) {ratFactor : List ℚ → Option (Option (Factored (List ℚ)))} {gen x : List ℚ}
    (hgen : aeval (lval f p alpha) (qp gen) = lval f p (polyConst ratOps.polyVar)) (hx : aeval (lval f p alpha) (qp x) = lval f p (anfOps f).polyVar)
    {qi : List ℚ × Nat} {r : List (List ℚ)} (e : Anf.reducedFactor ratFactor f (qp f).natDegree gen x qi = some r) :
    qi.2 = 1 ∧ (polyVal (el f) r).Monic ∧ Module.finrank ℚ (NumField f) * (polyVal (el f) r).natDegree = (qp qi.1).natDegree ∧
      AdjoinRoot.mk (polyVal (el f) p) (polyVal (el f) r) ∈ fIdeal (lval f p alpha) (qp qi.1) := by
  have hk := irr_pos f
  generalize hkk : (qp f).natDegree = k at e hk
  unfold Anf.reducedFactor at e
  simp only [Option.bind_eq_bind] at e
  obtain ⟨_, a1, e⟩ := Option.bind_eq_some_iff.1 e
  obtain ⟨_, -, e⟩ := Option.bind_eq_some_iff.1 e
  obtain ⟨_, -, e⟩ := Option.bind_eq_some_iff.1 e
  obtain ⟨_, a4, e⟩ := Option.bind_eq_some_iff.1 e
  obtain ⟨qd, a5, e⟩ := Option.bind_eq_some_iff.1 e
  obtain ⟨_, a6, e⟩ := Option.bind_eq_some_iff.1 e
  obtain ⟨rows, b1, e⟩ := Option.bind_eq_some_iff.1 e
  obtain ⟨mat, b2, e⟩ := Option.bind_eq_some_iff.1 e
  obtain ⟨rk, -, e⟩ := Option.bind_eq_some_iff.1 e
  obtain ⟨_, -, e⟩ := Option.bind_eq_some_iff.1 e
  obtain ⟨vec, b3, e⟩ := Option.bind_eq_some_iff.1 e
  obtain ⟨s, b4, e⟩ := Option.bind_eq_some_iff.1 e
  obtain ⟨pi', b5, e⟩ := Option.bind_eq_some_iff.1 e
  have a1 : qi.2 = 1 := by
    by_contra hc
    simp [assertThat, hc] at a1
  have a6 : qd % k = 0 := by
    by_contra hc
    simp [assertThat, hc] at a6
  have hq : qp qi.1 ≠ 0 := by
    intro h0
    have := (ratOps_models.toRing.toSemi.poly.isZero qi.1).2 h0
    rw [this] at a4
    cases a4
  rw [ratOps_models.pqDegree qi.1 hq] at a5
  have hqd : (qp qi.1).natDegree = qd := Option.some.inj a5
  have hN : (qp qi.1).natDegree = qd / k * k := by rw [hqd, Nat.div_mul_cancel (Nat.dvd_of_mod_eq_zero a6)]
  have b2' : Mat.joinRows (qd / k * k) rows = some mat := by rw [← hN, hqd]; exact b2
  generalize hd : qd / k = d at *
  obtain ⟨Xm, x1, x2⟩ := relation qi.1 x gen hq hk hN b1 b2' b3 b4
  have hpi := rowToDoublePoly_spec rfl x1 b5
  cases e
  have hneg := polyVal_negs f pi'
  have hval : polyVal (el f) ((anfOps f).polyAdd ((anfOps f).polyVarPow d) (pi'.map ratOps.polyNeg)) =
      X ^ d + - polyVal (el f) pi' := by
    rw [anfOps_models.toRing.toSemi.polyAdd, anfOps_models.toRing.toSemi.polyVarPow, hneg]
  have hdeg : (polyVal (el f) pi').degree < d := by
    rw [hpi, polyVal_ofFn']
    exact vecPoly_degree _
  rw [hval]
  refine ⟨a1, monic_X_pow_add (by rw [degree_neg]; exact hdeg), ?_, ?_⟩
  · have h := degree_add_eq_left_of_degree_lt (p := (X : (NumField f)[X]) ^ d) (q := - polyVal (el f) pi') (by rw [degree_neg, degree_X_pow]; exact hdeg)
    rw [degree_X_pow] at h
    rw [natDegree_eq_of_degree_eq_some h, finrank_eq, hkk, hN, mul_comm]
  · rw [Ideal.mem_span_singleton]
    have := map_dvd (aeval (lval f p alpha) : ℚ[X] →ₐ[ℚ] _) x2
    refine this.trans (dvd_of_eq ?_)
    rw [map_sub, map_pow, hx, map_sum, ← sub_eq_add_neg, map_sub, map_pow, AdjoinRoot.mk_X]
    have hroot : lval f p (anfOps f).polyVar = AdjoinRoot.root _ := by
      unfold lval
      rw [anfOps_models.toRing.toSemi.polyVar, AdjoinRoot.mk_X]
    have hth : lval f p (polyConst ratOps.polyVar) = algebraMap (NumField f) _ (AdjoinRoot.root (qp f)) := by
      unfold lval
      have : polyVal (el f) (polyConst ratOps.polyVar) = C (el f ratOps.polyVar) := by simp [polyConst, polyVal]
      rw [this]
      unfold el
      rw [ratOps_models.toRing.toSemi.polyVar, AdjoinRoot.mk_X]
      rfl
    rw [hroot]
    congr 1
    let F : Nat → Nat → Nat → AdjoinRoot (polyVal (el f) p) := fun i j t => if h : t < d * k then
      (Xm 0 ⟨t, h⟩ • (AdjoinRoot.root (qp f)) ^ j) • (AdjoinRoot.root (polyVal (el f) p)) ^ i else 0
    have hsum : ∀ t : Fin (d * k), (aeval (lval f p alpha) : ℚ[X] →ₐ[ℚ] _) (C (Xm 0 t) * (qp x ^ ((t : Nat) / k) * qp gen ^ ((t : Nat) % k))) =
        F ((t : Nat) / k) ((t : Nat) % k) t := by
      intro t
      simp only [F, t.2, dif_pos]
      rw [map_mul, map_mul, map_pow, map_pow, hx, hgen, hroot, hth, aeval_C, ← map_pow, Algebra.smul_def, Algebra.smul_def, map_mul,
        IsScalarTower.algebraMap_apply ℚ (NumField f) (AdjoinRoot (polyVal (el f) p))]
      ring
    refine (Finset.sum_congr rfl fun t _ => hsum t).trans ((sum_double hk F).trans ?_)
    rw [hpi, polyVal_ofFn', map_sum]
    refine Finset.sum_congr rfl fun i _ => ?_
    rw [map_mul, map_pow, AdjoinRoot.mk_X, el_ofFn, map_sum, map_sum, Finset.sum_mul]
    refine Finset.sum_congr rfl fun j _ => ?_
    simp only [F]
    rw [dif_pos (by have := i.2; have := j.2; nlinarith), Algebra.smul_def]
    rfl

end
end Verif.Anf
