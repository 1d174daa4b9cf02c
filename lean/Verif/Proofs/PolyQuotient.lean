import Verif.Proofs.Berlekamp
import Verif.Proofs.HermiteApp
import Mathlib.RingTheory.AdjoinRoot
import Mathlib.RingTheory.Norm.Basic
import Mathlib.RingTheory.Trace.Basic

/-!
# Quotients of polynomial rings as vector spaces
-/

namespace Verif.Rings

open Polynomial

section
variable {α K : Type} [Field K] {S : DomainOps α} {v : α → K} (h : S.Models v)
include h

theorem DomainOps.Models.polyRemMod (a b : List α) (hb : polyVal v b ≠ 0) :
    ∃ r, S.polyEuc.rem a b = some r ∧ polyVal v r = polyVal v a % polyVal v b := by
  rcases h.polyTryQuorem a b with ⟨h1, -⟩ | ⟨-, q, r, h2, h3, h4⟩ | ⟨-, -, h3⟩
  · exact absurd h1 hb
  · refine ⟨r, ?_, ?_⟩
    · have hz : S.polyEuc.isZero b = false := (h.toRing.toSemi.poly.isZero_false b).2 hb
      have e : S.polyEuc.quorem a b = some (some (q, r)) := by
        change (S.polyTryQuorem a b).bind quoremOrNone = _
        rw [h2]; rfl
      unfold EucOps.rem
      rw [hz, e]
      rfl
    · have : polyVal v a % polyVal v b = polyVal v r % polyVal v b := mod_eq_of_dvd_sub ⟨polyVal v q, by rw [h3]; ring⟩
      rw [this, (mod_eq_self_iff hb).2 h4]
  · exact absurd ⟨polyVal v a / polyVal v b, polyVal v a % polyVal v b,
        by rw [mul_comm]; exact (EuclideanDomain.div_add_mod _ _).symm, EuclideanDomain.mod_lt _ hb⟩ h3

omit h in
theorem polyQuoremLoop_reduced (S : DomainOps α) (v : α → K) (h : S.Models v) (b : List α) (n i : Nat) (q a q' r : List α)
    (ha : PolyReduced v a) (e : S.polyQuoremLoop b n i q a = some (.ok (q', r))) : PolyReduced v r := by
  induction i generalizing q a with
  | zero => cases e; exact ha
  | succ i ih =>
    rw [DomainOps.polyQuoremLoop] at e
    split at e
    · refine ih _ _ ?_ e
      unfold RingOps.polySubShift SemiRingOps.polyAdd
      exact h.toRing.toSemi.polyReduce_reduced _
    · cases e
    · cases e
    · cases e

theorem DomainOps.Models.polyRem_reduced (a b r : List α) (ha : PolyReduced v a) (e : S.polyEuc.rem a b = some r) : PolyReduced v r := by
  unfold EucOps.rem at e
  split at e
  · cases e; exact ha
  · change (((S.polyTryQuorem a b).bind quoremOrNone).bind _) = _ at e
    unfold DomainOps.polyTryQuorem at e
    simp only at e
    split at e
    · cases e
    · split at e
      · cases e; exact ha
      · cases hq : S.polyQuoremLoop b (S.polyNumCoeffs b) (S.polyNumCoeffs a - S.polyNumCoeffs b + 1)
          (List.replicate (S.polyNumCoeffs a - S.polyNumCoeffs b + 1) S.zero) a with
        | none => rw [hq] at e; cases e
        | some x =>
          rw [hq] at e
          cases x with
          | error x => cases x <;> cases e
          | ok x =>
            obtain ⟨q', r'⟩ := x
            cases e
            exact polyQuoremLoop_reduced S v h b _ _ _ a q' r' ha hq

omit h in
theorem PolyReduced.length_le {p : List α} (hp : PolyReduced v p) {n : Nat} (hd : (polyVal v p).degree < n) : p.length ≤ n := by
  by_contra hc
  have hne : p ≠ [] := fun e => by rw [e] at hc; simp at hc
  have h1 := hp (p.getLast hne) (List.getLast?_eq_some_getLast hne)
  apply h1
  rw [List.getLast_eq_getElem, ← coeff_polyVal_lt v p (p.length - 1) (by omega)]
  exact (degree_lt_iff_coeff_zero _ n).1 hd _ (by omega)

theorem DomainOps.Models.pqDegree (f : List α) (hf : polyVal v f ≠ 0) : S.pqDegree f = some (polyVal v f).natDegree :=
  h.toRing.toSemi.polyDegree_some f hf

omit h in
theorem degree_mod_lt {f : K[X]} (hf : f ≠ 0) (a : K[X]) : (a % f).degree < (f.natDegree : WithBot ℕ) := by
  rw [← degree_eq_natDegree hf]
  exact EuclideanDomain.mod_lt a hf

theorem DomainOps.Models.pqToCol (f a : List α) (hf : polyVal v f ≠ 0) {n : Nat} (hn : (polyVal v f).natDegree = n) :
    ∃ m, S.pqToCol f a = some m ∧ m.Denotes v (Matrix.of fun (i : Fin n) (_ : Fin 1) => (polyVal v a % polyVal v f).coeff i) := by
  obtain ⟨r, r1, r2⟩ := h.polyRemMod a f hf
  obtain ⟨m, m1, m2⟩ := Mat.construct_denotes (v := v) (r := n) (c := 1) (mk := fun i _ => some (S.polyCoeff r i))
    (A := Matrix.of fun (i : Fin n) (_ : Fin 1) => (polyVal v a % polyVal v f).coeff i)
    (fun i j => ⟨_, rfl, by rw [h.toRing.toSemi.polyCoeff, r2]; rfl⟩)
  refine ⟨m, ?_, m2⟩
  unfold DomainOps.pqToCol DomainOps.pqReduce
  simp only [r1, h.pqDegree f hf, hn, m1, Option.bind_eq_bind, Option.bind_some]

theorem DomainOps.Models.pqFromCol (f : List α) (hf : polyVal v f ≠ 0) {n : Nat} (hn : (polyVal v f).natDegree = n) {m : Mat α}
    {A : Matrix (Fin n) (Fin 1) K} (hm : m.Denotes v A) :
    ∃ p, S.pqFromCol f m = some p ∧ polyVal v p = vecPoly fun i => A i 0 := by
  have hget := fun c : Fin n => hm.get c 0
  choose g hg1 hg2 using hget
  refine ⟨List.ofFn g, ?_, ?_⟩
  · unfold DomainOps.pqFromCol
    simp only [hm.cols, hm.rows, h.pqDegree f hf, hn, assertThat, beq_self_eq_true, if_true, Option.bind_eq_bind, Option.bind_some]
    exact mapM_range_ofFn hg1
  · refine polyVal_ext v S.zero h.toRing.toSemi.zero _ _ fun i => ?_
    by_cases hi : i < n
    · rw [List.getD_eq_getElem?_getD, List.getElem?_ofFn]
      simp only [hi, dif_pos, Option.getD_some]
      rw [hg2 ⟨i, hi⟩]
      exact (coeff_vecPoly (fun i => A i 0) ⟨i, hi⟩).symm
    · rw [List.getD_eq_getElem?_getD, List.getElem?_ofFn]
      simp only [hi, dif_neg, Option.getD_none, not_false_eq_true]
      rw [h.toRing.toSemi.zero, coeff_vecPoly_ge _ _ (by omega)]

/-- the matrix of the multiplication by `a` -/
theorem DomainOps.Models.pqColMulMatrix (f a : List α) (hf : polyVal v f ≠ 0) {n : Nat} (hn : (polyVal v f).natDegree = n) (hn0 : 0 < n) :
    ∃ m, S.pqColMulMatrix f a = some m ∧
      m.Denotes v (Matrix.of fun (i j : Fin n) => ((polyVal v a * X ^ (j : Nat)) % polyVal v f).coeff i) := by
  have hcol : ∀ j : Nat, ∃ l, S.pqMulCol f n a j = some l ∧ l.length = n ∧ ∀ i, v (l.getD i S.zero) = ((polyVal v a * X ^ j) % polyVal v f).coeff i := by
    intro j
    obtain ⟨r, r1, r2⟩ := h.polyRemMod (S.polyMul a (S.polyVarPow j)) f hf
    rw [h.toRing.toSemi.polyMul, h.toRing.toSemi.polyVarPow] at r2
    have hred : PolyReduced v r := h.polyRem_reduced _ f r (by
      unfold SemiRingOps.polyMul
      exact h.toRing.toSemi.polyReduce_reduced _) r1
    have hlen : r.length ≤ n := hred.length_le (by rw [r2, ← hn]; exact degree_mod_lt hf _)
    refine ⟨S.padZeros n r, ?_, ?_, ?_⟩
    · unfold DomainOps.pqMulCol DomainOps.pqReduce
      simp only [r1, assertThat, hlen, decide_true, if_true, Option.bind_eq_bind, Option.bind_some]
    · unfold SemiRingOps.padZeros; simp; omega
    · intro i
      rw [← r2, coeff_polyVal v S.zero h.toRing.toSemi.zero]
      unfold SemiRingOps.padZeros
      simp only [List.getD_eq_getElem?_getD, List.getElem?_append]
      split
      · rfl
      · rename_i hi
        rw [List.getElem?_replicate, List.getElem?_eq_none (by omega : r.length ≤ i)]
        split <;> rfl
  choose col c1 c2 c3 using hcol
  have e : (List.range n).mapM (S.pqMulCol f n a) = some ((List.range n).map col) := mapM_eq_map _ fun j _ => c1 j
  obtain ⟨m, m1, m2, m3, m4, m5⟩ := Mat.fromRows_spec ((List.range n).map col) n (by simp; omega) (by
    intro l hl
    obtain ⟨j, -, rfl⟩ := List.mem_map.1 hl
    exact c2 j)
  have hm : m.Denotes v (Matrix.of fun (j i : Fin n) => ((polyVal v a * X ^ (j : Nat)) % polyVal v f).coeff i) := by
    refine ⟨by simpa using m2, m3, m4, fun j i => ⟨(col j)[(i : Nat)]'(by rw [c2]; exact i.2), ?_, ?_⟩⟩
    · have := m5 j i (by simp) (by simp [c2])
      simpa using this
    · have := c3 j i
      rw [List.getD_eq_getElem?_getD, List.getElem?_eq_getElem (by rw [c2]; exact i.2)] at this
      exact this
  refine ⟨m.transposed, ?_, hm.transposed⟩
  unfold DomainOps.pqColMulMatrix Mat.fromCols
  simp only [h.pqDegree f hf, hn, e, m1, Option.bind_eq_bind, Option.bind_some, Option.map_some]

omit h in
theorem C_mul_polyMod {f : K[X]} (hf : f ≠ 0) (c : K) (p : K[X]) : (C c * p) % f = C c * (p % f) := by
  have h1 : (C c * p) % f = (C c * (p % f)) % f := by
    apply mod_eq_of_dvd_sub
    rw [← mul_sub]
    exact (dvd_sub_polyMod p f).mul_left _
  rw [h1, mod_eq_self_iff hf]
  refine lt_of_le_of_lt ?_ (EuclideanDomain.mod_lt p hf)
  change (C c * (p % f)).degree ≤ _
  exact (degree_mul_le _ _).trans (by
    refine le_trans (add_le_add_left degree_C_le _) ?_
    rw [zero_add])

omit h in
/-- the matrix multiplies coordinate vectors -/
theorem mulMatrix_vec {f : K[X]} (hf : f ≠ 0) {n : Nat} (hn : f.natDegree = n) (a b : K[X]) (i : Fin n) :
    ∑ j : Fin n, ((a * X ^ (j : Nat)) % f).coeff i * (b % f).coeff j = ((a * b) % f).coeff i := by
  have hb : b % f = ∑ j : Fin n, C ((b % f).coeff j) * X ^ (j : Nat) :=
    (vecPoly_of_degree (n := n) (b % f) (by rw [← hn]; exact degree_mod_lt hf b)).symm
  have h1 : (a * b) % f = (a * (b % f)) % f := by
    apply mod_eq_of_dvd_sub
    rw [← mul_sub]
    exact (dvd_sub_polyMod b f).mul_left a
  have hsum : ∀ s : Finset (Fin n), (a * ∑ j ∈ s, C ((b % f).coeff j) * X ^ (j : Nat)) % f
      = ∑ j ∈ s, C ((b % f).coeff j) * ((a * X ^ (j : Nat)) % f) := by
    intro s
    classical
    induction s using Finset.induction_on with
    | empty => simp
    | insert x s hx ih =>
      rw [Finset.sum_insert hx, Finset.sum_insert hx, mul_add, add_mod, ih]
      rw [← C_mul_polyMod hf]
      congr 2
      ring
  rw [h1]
  conv_rhs => rw [hb]
  rw [hsum, finsetSum_coeff]
  refine Finset.sum_congr rfl fun j _ => ?_
  rw [coeff_C_mul, mul_comm]

omit h in
/-- coordinates of an element of the quotient -/
theorem adjoinRoot_repr {f : K[X]} (hf : f ≠ 0) (p : K[X]) (i : Fin f.natDegree) :
    (AdjoinRoot.powerBasis hf).basis.repr (AdjoinRoot.mk f p) i = (p % f).coeff i := by
  have h1 : AdjoinRoot.mk f p = AdjoinRoot.mk f (p % f) := by
    rw [AdjoinRoot.mk_eq_mk]; exact dvd_sub_polyMod p f
  have h2 : p % f = ∑ j : Fin f.natDegree, C ((p % f).coeff j) * X ^ (j : Nat) :=
    (vecPoly_of_degree (n := f.natDegree) (p % f) (degree_mod_lt hf p)).symm
  have h3 : AdjoinRoot.mk f (p % f) = ∑ j : Fin f.natDegree, (p % f).coeff j • (AdjoinRoot.powerBasis hf).basis j := by
    conv_lhs => rw [h2]
    rw [map_sum]
    refine Finset.sum_congr rfl fun j _ => ?_
    have e := PowerBasis.basis_eq_pow (AdjoinRoot.powerBasis hf) j
    rw [AdjoinRoot.powerBasis_gen] at e
    refine Eq.trans ?_ (congrArg (fun z => (p % f).coeff j • z) e).symm
    rw [map_mul, map_pow, AdjoinRoot.mk_X, AdjoinRoot.mk_C, Algebra.smul_def]
    rfl
  rw [h1, h3]
  exact congrFun ((AdjoinRoot.powerBasis hf).basis.repr_sum_self fun j : Fin f.natDegree => (p % f).coeff j) i

omit h in
theorem adjoinRoot_leftMulMatrix {f : K[X]} (hf : f ≠ 0) (a : K[X]) :
    Algebra.leftMulMatrix (AdjoinRoot.powerBasis hf).basis (AdjoinRoot.mk f a)
      = Matrix.of fun (i j : Fin f.natDegree) => ((a * X ^ (j : Nat)) % f).coeff i := by
  ext i j
  rw [Algebra.leftMulMatrix_eq_repr_mul, PowerBasis.basis_eq_pow, AdjoinRoot.powerBasis_gen, ← AdjoinRoot.mk_X, ← map_pow, ← map_mul]
  exact adjoinRoot_repr hf _ i

theorem DomainOps.Models.pqTrace (f a : List α) (hf : polyVal v f ≠ 0) (hn0 : 0 < (polyVal v f).natDegree) :
    ∃ x, S.pqTrace f a = some x ∧ v x = Algebra.trace K (AdjoinRoot (polyVal v f)) (AdjoinRoot.mk _ (polyVal v a)) := by
  obtain ⟨m, m1, m2⟩ := h.pqColMulMatrix f a hf rfl hn0
  obtain ⟨x, x1, x2⟩ := h.toRing.toSemi.matTrace m2
  refine ⟨x, ?_, ?_⟩
  · unfold DomainOps.pqTrace
    simp only [m1, x1, Option.bind_eq_bind, Option.bind_some]
    rfl
  · rw [x2, Algebra.trace_eq_matrix_trace (AdjoinRoot.powerBasis hf).basis, adjoinRoot_leftMulMatrix]
    rfl

theorem DomainOps.Models.pqNorm (f a : List α) (hf : polyVal v f ≠ 0) (hn0 : 0 < (polyVal v f).natDegree) :
    ∃ x, S.pqNorm f a = some x ∧ v x = Algebra.norm K (AdjoinRoot.mk (polyVal v f) (polyVal v a)) := by
  obtain ⟨m, m1, m2⟩ := h.pqColMulMatrix f a hf rfl hn0
  obtain ⟨x, x1, x2⟩ := h.fieldEuc.bezout.matDet m2
  refine ⟨x, ?_, ?_⟩
  · unfold DomainOps.pqNorm
    simp only [m1, x1, Option.bind_eq_bind, Option.bind_some]
    rfl
  · rw [x2, Algebra.norm_eq_matrix_det (AdjoinRoot.powerBasis hf).basis, adjoinRoot_leftMulMatrix]
    rfl

end

end Verif.Rings
