import Verif.Proofs.GolayCode

/-!
# The constructor of Golay codes: when it succeeds
-/

namespace Verif.Golay
open Finset Verif.Rings

/-- The sum of the rows with coefficient `true`, from row `k` on. -/
def spanSum (rows : Nat → Fin 24 → ZMod 2) : List Bool → Nat → Fin 24 → ZMod 2
  | [], _ => 0
  | c :: cs, k => (if c then rows k else 0) + spanSum rows cs (k + 1)

theorem spanSum_ofFn (rows : Nat → Fin 24 → ZMod 2) {n : Nat} (f : Fin n → Bool) (k : Nat) :
    spanSum rows (List.ofFn f) k = ∑ i : Fin n, if f i then rows (k + i) else 0 := by
  induction n generalizing k with
  | zero => simp [spanSum]
  | succ n ih =>
    rw [List.ofFn_succ, Fin.sum_univ_succ, spanSum, ih]
    congr 1
    apply Finset.sum_congr rfl
    intro i _
    rw [Fin.val_succ, show k + 1 + (i : Nat) = k + (i + 1) by omega]

theorem spanVector_loop {basis : List Vector24} {rows : Nat → Fin 24 → ZMod 2}
    (hb : ∀ i < basis.length, ∃ b, basis[i]? = some b ∧ b.Valid ∧ indicator b.set = rows i) (cs : List Bool) (k : Nat)
    (hk : k + cs.length ≤ basis.length) (v : Vector24) (hv : v.Valid) :
    ∃ v', (cs.zipIdx k).foldlM (fun v ic => if ic.1 then (basis[ic.2]?).map v.add else some v) v = some v' ∧ v'.Valid ∧
      indicator v'.set = indicator v.set + spanSum rows cs k := by
  induction cs generalizing k v with
  | nil => exact ⟨v, rfl, hv, by simp [spanSum]⟩
  | cons c cs ih =>
    rw [List.length_cons] at hk
    rw [List.zipIdx_cons, List.foldlM_cons]
    cases c
    · obtain ⟨v', h1, h2, h3⟩ := ih (k + 1) (by omega) v hv
      refine ⟨v', h1, h2, ?_⟩
      rw [h3]
      simp [spanSum]
    · obtain ⟨b, b1, b2, b3⟩ := hb k (by omega)
      obtain ⟨v', h1, h2, h3⟩ := ih (k + 1) (by omega) (v.add b) (valid_add hv b2)
      refine ⟨v', ?_, h2, ?_⟩
      · simp only [if_true, b1, Option.map_some, Option.bind_eq_bind, Option.bind_some]
        exact h1
      · rw [h3, set_add, indicator_symm, b3]
        simp [spanSum, add_assoc]

theorem spanVector_spec {basis : List Vector24} {rows : Nat → Fin 24 → ZMod 2}
    (hb : ∀ i < basis.length, ∃ b, basis[i]? = some b ∧ b.Valid ∧ indicator b.set = rows i) (cs : List Bool)
    (hk : cs.length ≤ basis.length) :
    ∃ v, spanVector basis cs = some v ∧ v.Valid ∧ indicator v.set = spanSum rows cs 0 := by
  obtain ⟨v, h1, h2, h3⟩ := spanVector_loop hb cs 0 (by omega) Vector24.zero valid_zero
  refine ⟨v, h1, h2, ?_⟩
  rw [h3, set_zero, indicator_empty, zero_add]

theorem mem_coeffs {n : Nat} {cs : List Bool} : cs ∈ Factored.multiCartesianProduct (List.replicate n [false, true]) ↔ cs.length = n := by
  rw [Verif.Rings.mem_multiCartesianProduct]
  constructor
  · intro h; simpa using h.length_eq
  · rintro rfl
    rw [List.forall₂_iff_get]
    refine ⟨by simp, ?_⟩
    intro i h1 h2
    simp only [List.get_eq_getElem, List.getElem_replicate]
    cases cs[i] <;> simp

theorem bit_one {x : Fin 2} : bit x = 1 ↔ x = 1 := by revert x; decide

/-- a row of the matrix as a mask -/
theorem basisVector_spec {m : Mat (Fin 2)} {A : Matrix (Fin 12) (Fin 24) (ZMod 2)} (hm : m.Denotes bit A) (i : Fin 12) :
    ∃ v, basisVector m i = some v ∧ v.Valid ∧ indicator v.set = A i := by
  obtain ⟨f, hf, hA⟩ := (Mat.denotes_iff (0 : Fin 2)).1 hm
  obtain ⟨row, r1, r2⟩ := hf.submatrix [(i : Nat)] (List.range m.cols) (by simp) (by
    intro c hc
    rw [List.mem_range, hf.cols] at hc
    exact hc)
  rw [hf.cols, List.length_range] at r2
  obtain ⟨v, v1, v2, v3⟩ := new_spec (f := fun j => (row.get 0 j).map fun x => x == 1) (g := fun j => f i j == 1) (by
    intro j hj
    rw [r2.get 0 j (by simp) hj]
    simp [hj])
  refine ⟨v, ?_, v2, ?_⟩
  · unfold basisVector Mat.getRow
    rw [r1]
    simp only [Option.bind_eq_bind, Option.bind_some]
    unfold Vector24.fromRow
    rw [if_pos (by rw [r2.rows, r2.cols]; rfl), v1]
    rfl
  · funext j
    have := v3 j
    rw [beq_iff_eq, ← bit_one, hA] at this
    simp only [indicator]
    by_cases hj : j ∈ v.set
    · rw [if_pos hj, this.1 hj]
    · rw [if_neg hj]
      rcases two_cases (A i j) with h | h
      · exact h.symm
      · exact absurd (this.2 h) hj

/-- What the table of a code has to provide. -/
def CodeOk (g : Code) (C : Submodule (ZMod 2) (Fin 24 → ZMod 2)) : Prop :=
  ∀ k : Vector24, k.Valid → k.set.card = 5 → ∃ o, mapGet k g.blocks = some o ∧ o.Valid ∧ o.set ∈ famOf C ∧ o.set.card = 8 ∧ k.set ⊆ o.set

theorem card_keys {bl : List (Vector24 × Vector24)} (hn : (bl.map Prod.fst).Nodup) {F : Finset (Finset Pt)} (hok : ∀ e ∈ bl, EntryOk F e)
    (hall : ∀ k : Vector24, k.Valid → k.set.card = 5 → k ∈ bl.map Prod.fst) : bl.length = 42504 := by
  have h1 : (bl.map fun e => e.1.set).Nodup := by
    rw [show (fun e : Vector24 × Vector24 => e.1.set) = Vector24.set ∘ Prod.fst from rfl, ← List.map_map]
    refine List.Nodup.map_on ?_ hn
    intro x hx y hy e
    obtain ⟨a, ha, rfl⟩ := List.mem_map.1 hx
    obtain ⟨b, hb, rfl⟩ := List.mem_map.1 hy
    exact vec_ext (hok a ha).1 (hok b hb).1 e
  have h2 : (bl.map fun e => e.1.set).toFinset = powersetCard 5 univ := by
    ext s
    rw [List.mem_toFinset, mem_powersetCard_univ, List.mem_map]
    constructor
    · rintro ⟨e, he, rfl⟩; exact (hok e he).2.1
    · intro hs
      obtain ⟨k, k1, k2⟩ := exists_vec s
      obtain ⟨e, he, e1⟩ := List.mem_map.1 (hall k k1 (by rw [k2, hs]))
      exact ⟨e, he, by rw [e1, k2]⟩
  have h3 := List.toFinset_card_of_nodup h1
  rw [h2, card_powersetCard, card_univ, Fintype.card_fin, List.length_map] at h3
  rw [← h3]
  decide +kernel

instance factTwo : Fact (Nat.Prime 2) := ⟨Nat.prime_two⟩

section
variable {m : Mat (Fin 2)} {A : Matrix (Fin 12) (Fin 24) (ZMod 2)} (hm : m.Denotes bit A)
include hm

theorem rank2_spec : ∃ k, rank2 m = some k ∧ (k = 12 ↔ LinearIndependent (ZMod 2) A.row) := by
  have hb := (moduloOps_models factTwo).toDomain.fieldEuc.bezout
  obtain ⟨k, h1, h2, h3⟩ := hb.matRank_rows (m := m) (A := A) hm
  exact ⟨k, h1, h3⟩

theorem basis_spec : ∃ basis, (List.range 12).mapM (basisVector m) = some basis ∧ basis.length = 12 ∧
    ∀ i < basis.length, ∃ b, basis[i]? = some b ∧ b.Valid ∧ indicator b.set = (fun i => if h : i < 12 then A ⟨i, h⟩ else 0) i := by
  choose v hv1 hv2 hv3 using fun i : Fin 12 => basisVector_spec hm i
  refine ⟨(List.range 12).map fun i => if h : i < 12 then v ⟨i, h⟩ else Vector24.zero, ?_, by simp, ?_⟩
  · apply mapM_eq_map
    intro i hi
    rw [List.mem_range] at hi
    rw [dif_pos hi]
    exact hv1 ⟨i, hi⟩
  · intro i hi
    simp only [List.length_map, List.length_range] at hi
    refine ⟨v ⟨i, hi⟩, ?_, hv2 _, ?_⟩
    · rw [List.getElem?_map, List.getElem?_range hi]
      simp [hi]
    · rw [hv3]
      simp [hi]

omit hm in
theorem spanSum_mem {cs : List Bool} (hc : cs.length = 12) :
    spanSum (fun i => if h : i < 12 then A ⟨i, h⟩ else 0) cs 0 ∈ Submodule.span (ZMod 2) (Set.range A.row) := by
  have aux : ∀ n, cs.length = n → ∃ f : Fin n → Bool, cs = List.ofFn f := by
    rintro _ rfl
    exact ⟨cs.get, (List.ofFn_get cs).symm⟩
  obtain ⟨f, rfl⟩ := aux 12 hc
  rw [spanSum_ofFn]
  apply Submodule.sum_mem
  intro i _
  split
  · simp only [zero_add, i.2, dif_pos]
    exact Submodule.subset_span ⟨i, rfl⟩
  · exact Submodule.zero_mem _

omit hm in
theorem spanSum_surj {x : Fin 24 → ZMod 2} (hx : x ∈ Submodule.span (ZMod 2) (Set.range A.row)) :
    ∃ cs : List Bool, cs.length = 12 ∧ spanSum (fun i => if h : i < 12 then A ⟨i, h⟩ else 0) cs 0 = x := by
  obtain ⟨c, rfl⟩ := (Submodule.mem_span_range_iff_exists_fun (ZMod 2)).1 hx
  refine ⟨List.ofFn fun i => decide (c i = 1), by simp, ?_⟩
  rw [spanSum_ofFn]
  apply Finset.sum_congr rfl
  intro i _
  simp only [zero_add, i.2, dif_pos]
  rcases two_cases (c i) with h | h
  · simp [h]
  · simp [h, Matrix.row]

theorem fromRow_rank (hli : ¬ LinearIndependent (ZMod 2) A.row) : fromRowBasisMatrix m = some (.error .notFullRank) := by
  obtain ⟨k, k1, k2⟩ := rank2_spec hm
  unfold fromRowBasisMatrix
  rw [if_neg (by rw [hm.rows, hm.cols]; decide), k1]
  simp only [Option.bind_eq_bind, Option.bind_some]
  rw [if_pos]
  rw [bne_iff_ne]
  exact fun e => hli (k2.1 e)

theorem fromRow_low (hli : LinearIndependent (ZMod 2) A.row) {x : Fin 24 → ZMod 2}
    (hx : x ∈ Submodule.span (ZMod 2) (Set.range A.row)) (h0 : x ≠ 0) (h8 : hammingNorm x < 8) :
    fromRowBasisMatrix m = some (.error .lowWeight) := by
  obtain ⟨k, k1, k2⟩ := rank2_spec hm
  obtain ⟨basis, b1, b2, b3⟩ := basis_spec hm
  have hv : ∀ cs : List Bool, ∃ v, cs.length = 12 → spanVector basis cs = some v ∧ v.Valid ∧
      indicator v.set = spanSum (fun i => if h : i < 12 then A ⟨i, h⟩ else 0) cs 0 := by
    intro cs
    by_cases hc : cs.length = 12
    · obtain ⟨v, hv⟩ := spanVector_spec b3 cs (by omega)
      exact ⟨v, fun _ => hv⟩
    · exact ⟨Vector24.zero, fun h => absurd h hc⟩
  choose val hval using hv
  obtain ⟨cs, c1, c2⟩ := spanSum_surj hx
  have := spanLoop_err (F := famOf (Submodule.span (ZMod 2) (Set.range A.row))) (basis := basis) val
    (Factored.multiCartesianProduct (List.replicate 12 [false, true])) (by
      intro cs hcs
      rw [mem_coeffs] at hcs
      obtain ⟨a, b, c⟩ := hval cs hcs
      refine ⟨a, b, ?_⟩
      rw [mem_famOf, c]
      exact spanSum_mem hcs) ⟨cs, mem_coeffs.2 c1, by
      have e := (hval cs c1).2.2
      rw [c2] at e
      rw [← norm_indicator, e]
      exact ⟨fun h => h0 (hammingNorm_eq_zero.1 h), h8⟩⟩ [] (by simp) (by simp)
  unfold fromRowBasisMatrix
  rw [if_neg (by rw [hm.rows, hm.cols]; decide), k1]
  simp only [Option.bind_eq_bind, Option.bind_some]
  rw [if_neg (by rw [k2.2 hli]; decide), b1]
  simp only [Option.bind_some]
  rw [this]
  rfl

theorem golay_span (hli : LinearIndependent (ZMod 2) A.row)
    (hw : ∀ x ∈ Submodule.span (ZMod 2) (Set.range A.row), x ≠ 0 → 8 ≤ hammingNorm x) :
    IsGolay (Submodule.span (ZMod 2) (Set.range A.row)) := ⟨by rw [finrank_span_eq_card hli]; rfl, hw⟩

theorem fromRow_ok (hli : LinearIndependent (ZMod 2) A.row)
    (hw : ∀ x ∈ Submodule.span (ZMod 2) (Set.range A.row), x ≠ 0 → 8 ≤ hammingNorm x) :
    ∃ g, fromRowBasisMatrix m = some (.ok g) ∧ CodeOk g (Submodule.span (ZMod 2) (Set.range A.row)) := by
  obtain ⟨k, k1, k2⟩ := rank2_spec hm
  obtain ⟨basis, b1, b2, b3⟩ := basis_spec hm
  have hv : ∀ cs : List Bool, ∃ v, cs.length = 12 → spanVector basis cs = some v ∧ v.Valid ∧
      indicator v.set = spanSum (fun i => if h : i < 12 then A ⟨i, h⟩ else 0) cs 0 := by
    intro cs
    by_cases hc : cs.length = 12
    · obtain ⟨v, hv⟩ := spanVector_spec b3 cs (by omega)
      exact ⟨v, fun _ => hv⟩
    · exact ⟨Vector24.zero, fun h => absurd h hc⟩
  choose val hval using hv
  have hG := golay_span hm hli hw
  have hFam := fam_of hG
  have hvF : ∀ cs, cs.length = 12 → (val cs).set ∈ famOf (Submodule.span (ZMod 2) (Set.range A.row)) := by
    intro cs hcs
    rw [mem_famOf, (hval cs hcs).2.2]
    exact spanSum_mem hcs
  obtain ⟨bl, l1, l2, l3, -, l5⟩ := spanLoop_ok (F := famOf (Submodule.span (ZMod 2) (Set.range A.row))) (basis := basis) val
    (Factored.multiCartesianProduct (List.replicate 12 [false, true])) (by
      intro cs hcs
      rw [mem_coeffs] at hcs
      obtain ⟨a, b, c⟩ := hval cs hcs
      exact ⟨a, b, hvF cs hcs⟩) (by
      intro cs hcs
      rw [mem_coeffs] at hcs
      by_cases he : (val cs).set = ∅
      · left; rw [he]; rfl
      · right; exact hFam.min _ (hvF cs hcs) he) [] (by simp) (by simp)
  have hall : ∀ k : Vector24, k.Valid → k.set.card = 5 → k ∈ bl.map Prod.fst := by
    intro k hk h5
    obtain ⟨O, mO, cO, hO⟩ := hFam.octad_exists k.set h5
    obtain ⟨cs, c1, c2⟩ := spanSum_surj (mem_famOf.1 mO)
    have e : (val cs).set = O := indicator_inj (by rw [(hval cs c1).2.2, c2])
    exact l5 cs (mem_coeffs.2 c1) (by rw [e, cO]) k hk h5 (by rw [e]; exact hO)
  refine ⟨⟨bl⟩, ?_, ?_⟩
  · unfold fromRowBasisMatrix
    rw [if_neg (by rw [hm.rows, hm.cols]; decide), k1]
    simp only [Option.bind_eq_bind, Option.bind_some]
    rw [if_neg (by rw [k2.2 hli]; decide), b1]
    simp only [Option.bind_some]
    rw [l1]
    simp only [Option.bind_some, assertThat, card_keys l2 l3 hall, beq_self_eq_true, if_true]
  · intro k hk h5
    obtain ⟨o, o1, o2⟩ := get_of_mem (hall k hk h5)
    obtain ⟨-, -, p3, p4, p5, p6⟩ := l3 _ o2
    exact ⟨o, o1, p3, p4, p5, p6⟩

end

theorem fromRow_dims {m : Mat (Fin 2)} (h : ¬ (m.rows = 12 ∧ m.cols = 24)) : fromRowBasisMatrix m = some (.error .wrongDimensions) := by
  unfold fromRowBasisMatrix
  rw [if_pos]
  simp only [Bool.or_eq_true, bne_iff_ne]
  by_contra hcon
  push Not at hcon
  exact h hcon

theorem completeOctad_spec {g : Code} {C : Submodule (ZMod 2) (Fin 24 → ZMod 2)} (h : CodeOk g C) {k : Vector24} (hk : k.Valid)
    (h5 : k.set.card = 5) : ∃ o, g.completeOctad k = some o ∧ o.Valid ∧ o.set ∈ famOf C ∧ o.set.card = 8 ∧ k.set ⊆ o.set := by
  obtain ⟨o, h1, h2, h3, h4, h6⟩ := h k hk h5
  refine ⟨o, ?_, h2, h3, h4, h6⟩
  unfold Code.completeOctad
  simp [assertThat, weight_eq, h5, h1, h4]

theorem completeOctad_none {g : Code} {k : Vector24} (h5 : k.set.card ≠ 5) : g.completeOctad k = none := by
  unfold Code.completeOctad
  simp [assertThat, weight_eq, h5]

end Verif.Golay
