import Verif.Proofs.GolayComplete
import Verif.Props.PermTable

/-!
# Round trips, orderings and the three codes of the crate
-/

namespace Verif.Golay
open Finset Verif.Rings

/-! ## Rows, columns and 4 × 6 matrices -/

theorem intoRow_spec (v : Vector24) : ∃ m, v.intoRow = some m ∧ m.Rep 1 24 fun _ c => if h : c < 24 then (if (⟨c, h⟩ : Pt) ∈ v.set then 1 else 0) else 0 := by
  obtain ⟨m, h1, h2, -⟩ := Mat.construct_rep (R := 1) (C := 24) (mk := fun r c => do
    assertThat (r == 0)
    let b ← v.contains c
    some (if b then (1 : Fin 2) else 0)) (f := fun _ c => if h : c < 24 then (if (⟨c, h⟩ : Pt) ∈ v.set then 1 else 0) else 0) (by
      intro r c hr hc
      have h0 : r = 0 := by omega
      have := contains_eq v ⟨c, hc⟩
      simp only at this
      simp [h0, assertThat, this, hc])
  exact ⟨m, h1, h2⟩

theorem intoMat_spec (v : Vector24) : ∃ m, v.intoMat = some m ∧
    m.Rep 4 6 fun r c => if h : c + 6 * r < 24 then (if (⟨c + 6 * r, h⟩ : Pt) ∈ v.set then 1 else 0) else 0 := by
  obtain ⟨m, h1, h2, -⟩ := Mat.construct_rep (R := 4) (C := 6) (mk := fun r c => do
    let b ← v.contains (c + 6 * r)
    some (if b then (1 : Fin 2) else 0)) (f := fun r c => if h : c + 6 * r < 24 then (if (⟨c + 6 * r, h⟩ : Pt) ∈ v.set then 1 else 0) else 0) (by
      intro r c hr hc
      have hlt : c + 6 * r < 24 := by omega
      have := contains_eq v ⟨c + 6 * r, hlt⟩
      simp only at this
      simp [this, hlt])
  exact ⟨m, h1, h2⟩

theorem fromRow_spec {m : Mat (Fin 2)} {f : Nat → Nat → Fin 2} (hm : m.Rep 1 24 f) :
    ∃ v, Vector24.fromRow m = some (some v) ∧ v.Valid ∧ ∀ i : Pt, i ∈ v.set ↔ f 0 i = 1 := by
  obtain ⟨v, v1, v2, v3⟩ := new_spec (f := fun j => (m.get 0 j).map fun x => x == 1) (g := fun j => f 0 j == 1) (by
    intro j hj
    rw [hm.get 0 j (by simp) hj]
    rfl)
  refine ⟨v, ?_, v2, fun i => by rw [v3, beq_iff_eq]⟩
  unfold Vector24.fromRow
  rw [if_pos (by rw [hm.rows, hm.cols]; rfl), v1]
  rfl

theorem fromMat_spec {m : Mat (Fin 2)} {f : Nat → Nat → Fin 2} (hm : m.Rep 4 6 f) :
    ∃ v, Vector24.fromMat m = some (some v) ∧ v.Valid ∧ ∀ i : Pt, i ∈ v.set ↔ f (i / 6) (i % 6) = 1 := by
  obtain ⟨v, v1, v2, v3⟩ := new_spec (f := fun j => (m.get (j / 6) (j % 6)).map fun x => x == 1) (g := fun j => f (j / 6) (j % 6) == 1) (by
    intro j hj
    rw [hm.get _ _ (by omega) (by omega)]
    rfl)
  refine ⟨v, ?_, v2, fun i => by rw [v3, beq_iff_eq]⟩
  unfold Vector24.fromMat
  rw [if_pos (by rw [hm.rows, hm.cols]; rfl), v1]
  rfl

/-! ## Orderings -/

theorem orderParts_spec (p : Fin 6 → Vector24) (σ : Fin 6 → Fin 6) :
    orderParts (List.ofFn p) (List.ofFn fun i => (σ i : Nat)) = some (List.ofFn fun i => p (σ i)) := by
  have hget : ∀ i : Fin 6, (List.ofFn p)[(i : Nat)]? = some (p i) := by
    intro i
    rw [List.getElem?_ofFn]
    simp
  simp only [orderParts, List.ofFn_succ, List.ofFn_zero, List.zipIdx_cons, List.zipIdx_nil, List.foldlM_cons, List.foldlM_nil]
  simp only [← List.ofFn_zero (f := fun i : Fin 0 => p i.elim0), ← List.ofFn_succ] at hget ⊢
  simp only [List.ofFn_succ, List.ofFn_zero] at hget ⊢
  simp only [hget, assertThat, Option.bind_eq_bind, Option.bind_some]
  rfl

/-! ## Checking a concrete code -/

/-- All sums of basis vectors except the empty one have at least 8 points. -/
def checkBasis (basis : List Vector24) : Bool :=
  (Factored.multiCartesianProduct (List.replicate 12 [false, true])).all fun cs =>
    match spanVector basis cs with
    | some v => cs.all not || decide (8 ≤ v.weight)
    | none => false

theorem golay_check {m : Mat (Fin 2)} {A : Matrix (Fin 12) (Fin 24) (ZMod 2)} (hm : m.Denotes bit A) {basis : List Vector24}
    (hb : (List.range 12).mapM (basisVector m) = some basis) (hc : checkBasis basis = true) :
    LinearIndependent (ZMod 2) A.row ∧ ∀ x ∈ Submodule.span (ZMod 2) (Set.range A.row), x ≠ 0 → 8 ≤ hammingNorm x := by
  obtain ⟨basis', b1, b2, b3⟩ := basis_spec hm
  rw [hb] at b1
  cases b1
  have key : ∀ cs : List Bool, cs.length = 12 → cs.all not = true ∨ 8 ≤ hammingNorm (spanSum (fun i => if h : i < 12 then A ⟨i, h⟩ else 0) cs 0) := by
    intro cs hcs
    have := List.all_eq_true.1 hc cs (mem_coeffs.2 hcs)
    obtain ⟨v, v1, v2, v3⟩ := spanVector_spec b3 cs (by omega)
    rw [v1] at this
    simp only [Bool.or_eq_true, decide_eq_true_eq, weight_eq] at this
    rw [← v3, norm_indicator]
    exact this
  have zero : ∀ cs : List Bool, ∀ k rows, cs.all not = true → spanSum rows cs k = 0 := by
    intro cs
    induction cs with
    | nil => intro k rows _; rfl
    | cons c cs ih =>
      intro k rows h
      rw [List.all_cons, Bool.and_eq_true] at h
      cases c
      · simp [spanSum, ih _ _ h.2]
      · simp at h
  constructor
  · rw [Fintype.linearIndependent_iff]
    intro g hg i
    have e := spanSum_ofFn (fun i => if h : i < 12 then A ⟨i, h⟩ else 0) (fun i : Fin 12 => decide (g i = 1)) 0
    have e2 : (∑ i : Fin 12, if decide (g i = 1) = true then (fun i => if h : i < 12 then A ⟨i, h⟩ else 0) (0 + (i : Nat)) else 0) = 0 := by
      refine Eq.trans (Finset.sum_congr rfl ?_) hg
      intro i _
      simp only [zero_add, i.2, dif_pos]
      rcases two_cases (g i) with h | h
      · simp [h]
      · simp [h, Matrix.row]
    rcases key (List.ofFn fun i => decide (g i = 1)) (by simp) with h | h
    · have := List.all_eq_true.1 h (decide (g i = 1)) ((List.mem_ofFn' _ _).2 ⟨i, rfl⟩)
      simp only [Bool.not_eq_true', decide_eq_false_iff_not] at this
      exact (two_cases (g i)).resolve_right this
    · rw [e, e2, hammingNorm_zero] at h
      omega
  · intro x hx h0
    obtain ⟨cs, c1, rfl⟩ := spanSum_surj hx
    rcases key cs c1 with h | h
    · exact absurd (zero _ _ _ h) h0
    · exact h

theorem mapM_defined {α β : Type} {f : α → Option β} {l : List α} {r : List β} (h : l.mapM f = some r) (x : α) (hx : x ∈ l) :
    ∃ y, f x = some y := by
  induction l generalizing r with
  | nil => simp at hx
  | cons a l ih =>
    rw [List.mapM_cons] at h
    obtain ⟨y, hy, h⟩ := Option.bind_eq_some_iff.1 h
    obtain ⟨ys, hys, -⟩ := Option.bind_eq_some_iff.1 h
    rcases List.mem_cons.1 hx with rfl | hx
    · exact ⟨y, hy⟩
    · exact ih hys hx

/-- the digits of a list of strings as a matrix -/
theorem matrixOfRows_rep {rows : List String} {m : Mat (Fin 2)} (hm : matrixOfRows rows = some m) :
    m.Rep 12 24 fun i j => if (rows[i]?.bind fun r => r.toList[j]?) = some '1' then 1 else 0 := by
  unfold matrixOfRows at hm
  simp only [Option.bind_eq_bind] at hm
  obtain ⟨_, -, hm⟩ := Option.bind_eq_some_iff.1 hm
  have hall : ∀ r c, r < 12 → c < 24 → (rows[r]?.bind fun row => row.toList[c]?.bind digitOf) =
      some (if (rows[r]?.bind fun r => r.toList[c]?) = some '1' then 1 else 0) := by
    intro r c hr hc
    have hidx : c + r * 24 < 12 * 24 := by omega
    unfold Mat.construct at hm
    obtain ⟨l, hl, -⟩ := Option.map_eq_some_iff.1 hm
    obtain ⟨val, hin⟩ := mapM_defined hl (c + r * 24) (List.mem_range.2 hidx)
    rw [idx_div hc, idx_mod hc] at hin
    simp only [Option.bind_eq_bind] at hin
    obtain ⟨row, e1, hin⟩ := Option.bind_eq_some_iff.1 hin
    obtain ⟨ch, e2, hin⟩ := Option.bind_eq_some_iff.1 hin
    simp only [e1, e2, Option.bind_some]
    unfold digitOf at hin ⊢
    split at hin
    · simp
    · simp
    · simp at hin
  obtain ⟨m', h1, h2, -⟩ := Mat.construct_rep hall
  rw [h1] at hm
  cases hm
  exact h2

end Verif.Golay
