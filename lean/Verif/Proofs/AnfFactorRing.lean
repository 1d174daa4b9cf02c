import Verif.Model.AnfFactor
import Verif.Proofs.AnfFactorMath
import Verif.Proofs.NumberField
import Verif.Proofs.NumberField3
import Verif.Proofs.LatticeSolve
import Mathlib.RingTheory.AlgebraTower

/-! The ring `L = K[x]/(p)` over the number field as a vector space over the rational numbers: rows, powers of the generator, coordinates. -/

namespace Verif.Anf
open Verif.Rings Polynomial

local notation "qp" => polyVal (id : ℚ → ℚ)

/-- a list of lists laid out in one row -/
theorem flatMap_range {β : Type} (outer inner : Nat) (hi : 0 < inner) (g : Nat → Nat → β) :
    ((List.range outer).flatMap fun i => (List.range inner).map (g i)) = (List.range (outer * inner)).map fun t => g (t / inner) (t % inner) := by
  induction outer with
  | zero => simp
  | succ n ih =>
    rw [List.range_succ, List.flatMap_append, ih, Nat.succ_mul, List.range_add, List.map_append]
    congr 1
    simp only [List.flatMap_cons, List.flatMap_nil, List.append_nil, List.map_map]
    refine List.map_congr_left fun j hj => ?_
    rw [List.mem_range] at hj
    simp only [Function.comp]
    rw [show n * inner + j = j + inner * n by ring, Nat.add_mul_div_left _ _ hi, Nat.add_mul_mod_self_left, Nat.div_eq_of_lt hj,
      Nat.mod_eq_of_lt hj, zero_add]

section
variable {f : List ℚ} [hirr : Fact (Irreducible (qp f))]

theorem anfOps_models : (anfOps f).Models (el f) := (ratOps_models.polyEuc.quotientField f hirr.out).1

theorem poly_models : (ratOps.toSemiRingOps.poly).Models qp := ratOps_models.toRing.toSemi.poly

theorem numField_isField_inst : IsField (NumField f) := Field.toIsField _

/-- the element of `L` represented by a list -/
noncomputable def lval (f : List ℚ) (p x : List (List ℚ)) : AdjoinRoot (polyVal (el f) p) := AdjoinRoot.mk _ (polyVal (el f) x)

variable {p : List (List ℚ)}

theorem anf_poly_models : (anfOps f).toSemiRingOps.poly.Models (polyVal (el f)) := anfOps_models.toRing.toSemi.poly

theorem pqRing_models (hp : polyVal (el f) p ≠ 0) : ((anfOps f).pqRing p).Models (lval f p) :=
  anfOps_models.polyEuc.quotientRing p hp

/-- the basis `θ^j x^i` of `L`, in the order of the rows -/
noncomputable def lBasis (f : List ℚ) [hirr : Fact (Irreducible (qp f))] (p : List (List ℚ)) (hp : polyVal (el f) p ≠ 0) :
    Module.Basis (Fin ((polyVal (el f) p).natDegree * (qp f).natDegree)) ℚ (AdjoinRoot (polyVal (el f) p)) :=
  (((AdjoinRoot.powerBasis (irr_ne f)).basis.reindex (finCongr (AdjoinRoot.powerBasis_dim _))).smulTower'
    ((AdjoinRoot.powerBasis hp).basis.reindex (finCongr (AdjoinRoot.powerBasis_dim _)))).reindex finProdFinEquiv

theorem lBasis_apply (hp : polyVal (el f) p ≠ 0) (i : Fin (polyVal (el f) p).natDegree) (j : Fin (qp f).natDegree) :
    lBasis f p hp (finProdFinEquiv (i, j)) = (AdjoinRoot.root (qp f)) ^ (j : Nat) • (AdjoinRoot.root (polyVal (el f) p)) ^ (i : Nat) := by
  unfold lBasis
  rw [Module.Basis.reindex_apply, Equiv.symm_apply_apply, Module.Basis.smulTower'_apply, Module.Basis.reindex_apply,
    Module.Basis.reindex_apply, PowerBasis.basis_eq_pow, PowerBasis.basis_eq_pow, AdjoinRoot.powerBasis_gen, AdjoinRoot.powerBasis_gen]
  rfl

/-- the element with the given coordinates -/
noncomputable def rowEl (hp : polyVal (el f) p ≠ 0) (y : Fin ((polyVal (el f) p).natDegree * (qp f).natDegree) → ℚ) : AdjoinRoot (polyVal (el f) p) :=
  ∑ t, y t • lBasis f p hp t

theorem rowEl_double (hp : polyVal (el f) p ≠ 0) (y : Nat → Nat → ℚ) :
    rowEl hp (fun t => y (t / (qp f).natDegree) (t % (qp f).natDegree)) =
      ∑ i : Fin (polyVal (el f) p).natDegree, ∑ j : Fin (qp f).natDegree,
        y i j • (AdjoinRoot.root (qp f)) ^ (j : Nat) • (AdjoinRoot.root (polyVal (el f) p)) ^ (i : Nat) := by
  unfold rowEl
  rw [← finProdFinEquiv.sum_comp, Fintype.sum_prod_type]
  refine Finset.sum_congr rfl fun i _ => Finset.sum_congr rfl fun j _ => ?_
  rw [lBasis_apply]
  have hk : 0 < (qp f).natDegree := irr_pos f
  have h1 : ((finProdFinEquiv (i, j) : Fin _) : Nat) = (j : Nat) + (qp f).natDegree * i := rfl
  simp only [h1]
  rw [Nat.add_mul_div_left _ _ hk, Nat.div_eq_of_lt j.2, zero_add, Nat.add_mul_mod_self_left, Nat.mod_eq_of_lt j.2]

/-- an element written with powers of the root -/
theorem el_sum (c : List ℚ) (k : Nat) (hc : (qp c).degree < k) :
    el f c = ∑ j : Fin k, (qp c).coeff j • (AdjoinRoot.root (qp f)) ^ (j : Nat) := by
  unfold el
  conv_lhs => rw [← vecPoly_of_degree (qp c) hc]
  unfold vecPoly
  rw [map_sum]
  refine Finset.sum_congr rfl fun j _ => ?_
  rw [map_mul, map_pow, AdjoinRoot.mk_X, Algebra.smul_def]
  rfl

theorem lval_sum (r : List (List ℚ)) (d : Nat) (hr : ∀ i, d ≤ i → (polyVal (el f) r).coeff i = 0) :
    lval f p r = ∑ i : Fin d, (polyVal (el f) r).coeff i • (AdjoinRoot.root (polyVal (el f) p)) ^ (i : Nat) := by
  unfold lval
  have hd : (polyVal (el f) r).degree < d := (degree_lt_iff_coeff_zero _ _).2 hr
  conv_lhs => rw [← vecPoly_of_degree _ hd]
  unfold vecPoly
  rw [map_sum]
  refine Finset.sum_congr rfl fun j _ => ?_
  rw [map_mul, map_pow, AdjoinRoot.mk_X, Algebra.smul_def]
  rfl

/-- `double_poly_to_row` -/
theorem doublePolyToRow_spec {outer inner : Nat} (hi : 0 < inner) {a : List (List ℚ)} {m : Mat ℚ} (e : doublePolyToRow outer inner a = some m) :
    (∀ i, outer ≤ i → qp (a.getD i []) = 0) ∧ (∀ c ∈ a, (qp c).degree < inner) ∧
    m.Denotes (id : ℚ → ℚ) (Matrix.of fun (_ : Fin 1) (t : Fin (outer * inner)) => (qp (a.getD (t / inner) [])).coeff (t % inner)) := by
  unfold doublePolyToRow at e
  simp only [Option.bind_eq_bind] at e
  obtain ⟨_, e1, e⟩ := Option.bind_eq_some_iff.1 e
  obtain ⟨_, e2, e⟩ := Option.bind_eq_some_iff.1 e
  have e1 : ratOps.toSemiRingOps.poly.polyNumCoeffs a ≤ outer := by
    by_contra hc
    simp [assertThat, hc] at e1
  have e2 : ∀ c ∈ a, ratOps.polyNumCoeffs c ≤ inner := by
    unfold assertThat at e2
    split at e2
    · rename_i h
      simpa using h
    · cases e2
  rw [flatMap_range outer inner hi] at e
  obtain ⟨m', h1, h2, h3, h4, h5⟩ := Mat.fromRows_spec [(List.range (outer * inner)).map fun t =>
    ratOps.polyCoeff (ratOps.toSemiRingOps.poly.polyCoeff a (t / inner)) (t % inner)] (outer * inner) (by simp) (by simp)
  rw [h1] at e
  cases e
  refine ⟨fun i hi => ?_, fun c hc => numCoeffs_le.1 (e2 c hc), h2, h3, h4, fun i t => ?_⟩
  · have h0 : (polyVal qp a).coeff i = 0 := by
      by_cases hz : polyVal qp a = 0
      · rw [hz, coeff_zero]
      · rw [poly_models.polyNumCoeffs_ne a hz] at e1
        exact coeff_eq_zero_of_natDegree_lt (by omega)
    rw [← h0, coeff_polyVal qp [] (by simp [polyVal])]
  · obtain rfl : i = 0 := Subsingleton.elim _ _
    refine ⟨_, h5 0 t (by simp) (by simp [t.2]), ?_⟩
    simp only [List.getElem_cons_zero, List.getElem_map, List.getElem_range, Matrix.of_apply, id]
    exact ratOps_models.toRing.toSemi.polyCoeff _ _

/-- `l_to_vec` -/
theorem lToVec_spec (hp : polyVal (el f) p ≠ 0) {x : List (List ℚ)} {m : Mat ℚ}
    (e : lToVec f p (polyVal (el f) p).natDegree (qp f).natDegree x = some m) :
    ∃ y, m.Denotes (id : ℚ → ℚ) (Matrix.of fun (_ : Fin 1) t => y t) ∧ lval f p x = rowEl hp y := by
  obtain ⟨r, e1, e2⟩ := Option.bind_eq_some_iff.1 e
  obtain ⟨h1, h2, h3⟩ := doublePolyToRow_spec (irr_pos f) e2
  refine ⟨_, h3, ?_⟩
  rw [rowEl_double hp fun i j => (qp (r.getD i [])).coeff j]
  have hxr : lval f p x = lval f p r := by
    obtain ⟨r', q1, q2⟩ := anfOps_models.polyRemMod x p hp
    change (anfOps f).polyEuc.rem x p = some r at e1
    rw [q1] at e1
    cases e1
    unfold lval
    rw [q2]
    rw [← sub_eq_zero, ← map_sub, AdjoinRoot.mk_eq_zero]
    exact ⟨polyVal (el f) x / polyVal (el f) p, sub_eq_of_eq_add (EuclideanDomain.div_add_mod (polyVal (el f) x) (polyVal (el f) p)).symm⟩
  have hc : ∀ i, (polyVal (el f) r).coeff i = el f (r.getD i []) := fun i =>
    coeff_polyVal (el f) [] (by simp [el, polyVal]) r i
  have hdeg : ∀ i, (qp (r.getD i [])).degree < ((qp f).natDegree : ℕ) := by
    intro i
    rw [List.getD_eq_getElem?_getD]
    cases hq : r[i]? with
    | none => simp [polyVal]
    | some c => exact h2 c (List.mem_of_getElem? hq)
  rw [hxr, lval_sum r _ fun i hi => by rw [hc, el, h1 i hi, map_zero]]
  refine Finset.sum_congr rfl fun i _ => ?_
  rw [hc, el_sum _ _ (hdeg i), Finset.sum_smul]
  refine Finset.sum_congr rfl fun j _ => ?_
  rw [smul_assoc]

end
end Verif.Anf
