import Verif.Spec.RealRoots
import Verif.Proofs.Descartes
import Verif.Proofs.Polynomial

/-!
# Counting sign changes
-/

namespace Verif.RealRoots

open Polynomial Verif.Rings

theorem signChanges_pos (l : List Int) (h : ∀ x ∈ l, 0 < x) : signChanges l = 0 := by
  induction l with
  | nil => rfl
  | cons x l ih =>
    cases l with
    | nil => rfl
    | cons y l =>
      rw [signChanges, ih (fun z hz => h z (List.mem_cons_of_mem _ hz))]
      have h1 := h x (by simp)
      have h2 := h y (by simp)
      simp [not_lt.2 h1.le, not_lt.2 h2.le]

theorem signChanges_neg (l : List Int) (h : ∀ x ∈ l, x ≠ 0) : signChanges (l.map fun x => -x) = signChanges l := by
  induction l with
  | nil => rfl
  | cons x l ih =>
    cases l with
    | nil => rfl
    | cons y l =>
      have := ih (fun z hz => h z (List.mem_cons_of_mem _ hz))
      simp only [List.map_cons, signChanges] at this ⊢
      rw [this]
      congr 1
      have h1 := h x (by simp)
      have h2 := h y (by simp)
      rcases lt_or_gt_of_ne h1 with a | a <;> rcases lt_or_gt_of_ne h2 with b | b <;>
        simp [a, b, not_lt.2 a.le, not_lt.2 b.le]

theorem signChanges_zero (l : List Int) (h : ∀ x ∈ l, x ≠ 0) (h0 : signChanges l = 0) : (∀ x ∈ l, x < 0) ∨ ∀ x ∈ l, 0 < x := by
  induction l with
  | nil => exact Or.inl (by simp)
  | cons x l ih =>
    cases l with
    | nil =>
      rcases lt_or_gt_of_ne (h x (by simp)) with a | a
      · exact Or.inl (by simpa using a)
      · exact Or.inr (by simpa using a)
    | cons y l =>
      rw [signChanges] at h0
      have hx := h x (by simp)
      have hy := h y (by simp)
      rcases ih (fun z hz => h z (List.mem_cons_of_mem _ hz)) (by omega) with a | a
      · left
        have hy' := a y (by simp)
        have : x < 0 := by
          by_contra hc
          simp [hc, hy'] at h0
        intro z hz
        rcases List.mem_cons.1 hz with rfl | hz
        · exact this
        · exact a z hz
      · right
        have hy' := a y (by simp)
        have : ¬ x < 0 := by
          intro hc
          simp [hc, not_lt.2 hy'.le] at h0
        intro z hz
        rcases List.mem_cons.1 hz with rfl | hz
        · omega
        · exact a z hz

/-- The list never goes from positive to negative. -/
def UpList (l : List Int) : Prop := l.Pairwise fun x y => 0 < x → 0 ≤ y

theorem signChanges_up (l : List Int) (h : ∀ x ∈ l, x ≠ 0) (hu : UpList l) : signChanges l ≤ 1 := by
  induction l with
  | nil => simp [signChanges]
  | cons x l ih =>
    cases l with
    | nil => simp [signChanges]
    | cons y l =>
      rw [signChanges]
      have hu' := List.pairwise_cons.1 hu
      have hy := h y (by simp)
      by_cases hy0 : 0 < y
      · have h1 : ∀ z ∈ y :: l, 0 < z := by
          intro z hz
          rcases List.mem_cons.1 hz with rfl | hz'
          · exact hy0
          · have := (List.pairwise_cons.1 hu'.2).1 z hz' hy0
            have := h z (by simp [hz'])
            omega
        rw [signChanges_pos _ h1]
        split <;> omega
      · have hx0 : x < 0 := by
          by_contra hc
          have := h x (by simp)
          have := hu'.1 y (by simp) (by omega)
          omega
        have := ih (fun z hz => h z (List.mem_cons_of_mem _ hz)) hu'.2
        have hy1 : y < 0 := by omega
        simpa [hx0, hy1] using this

theorem signChanges_one (l : List Int) (h : ∀ x ∈ l, x ≠ 0) (h1 : signChanges l = 1) :
    (UpList l ∨ UpList (l.map fun x => -x)) ∧ (∃ x ∈ l, x < 0) ∧ ∃ x ∈ l, 0 < x := by
  induction l with
  | nil => simp [signChanges] at h1
  | cons x l ih =>
    cases l with
    | nil => simp [signChanges] at h1
    | cons y l =>
      rw [signChanges] at h1
      have hx := h x (by simp)
      have hy := h y (by simp)
      have hl : ∀ z ∈ y :: l, z ≠ 0 := fun z hz => h z (List.mem_cons_of_mem _ hz)
      by_cases hd : signChanges (y :: l) = 0
      · rw [hd] at h1
        have hne : (x < 0) ≠ (y < 0) := by
          intro e
          simp [e] at h1
        rcases signChanges_zero _ hl hd with a | a
        · have hy' := a y (by simp)
          have hx' : 0 < x := by
            rcases lt_or_gt_of_ne hx with b | b
            · exact absurd (by simp [b, hy'] : (x < 0) = (y < 0)) hne
            · exact b
          refine ⟨Or.inr ?_, ⟨y, by simp, hy'⟩, ⟨x, by simp, hx'⟩⟩
          rw [UpList, List.map_cons, List.pairwise_cons]
          refine ⟨fun z hz h0 => absurd h0 (by omega), ?_⟩
          rw [List.pairwise_map]
          exact List.Pairwise.imp_of_mem (R := fun _ _ => True) (fun {u w} _ hw _ _ => by have := a w hw; omega)
            (List.pairwise_of_forall (fun _ _ => trivial))
        · have hy' := a y (by simp)
          have hx' : x < 0 := by
            rcases lt_or_gt_of_ne hx with b | b
            · exact b
            · exact absurd (by simp [not_lt.2 b.le, not_lt.2 hy'.le] : (x < 0) = (y < 0)) hne
          refine ⟨Or.inl ?_, ⟨x, by simp, hx'⟩, ⟨y, by simp, hy'⟩⟩
          rw [UpList, List.pairwise_cons]
          refine ⟨fun z hz h0 => absurd h0 (by omega), ?_⟩
          exact List.Pairwise.imp_of_mem (R := fun _ _ => True) (fun {u w} _ hw _ _ => (a w hw).le)
            (List.pairwise_of_forall (fun _ _ => trivial))
      · have hd1 : signChanges (y :: l) = 1 := by omega
        have hs : decide (x < 0) = decide (y < 0) := by
          by_contra hc
          rw [if_pos (by simpa using hc)] at h1
          omega
        have hs' : x < 0 ↔ y < 0 := by simpa using hs
        obtain ⟨hu, ⟨u, hu1, hu2⟩, ⟨w, hw1, hw2⟩⟩ := ih hl hd1
        refine ⟨?_, ⟨u, List.mem_cons_of_mem _ hu1, hu2⟩, ⟨w, List.mem_cons_of_mem _ hw1, hw2⟩⟩
        rcases hu with hu | hu
        · left
          rw [UpList, List.pairwise_cons]
          refine ⟨fun z hz h0 => ?_, hu⟩
          exfalso
          have hy0 : 0 < y := by
            rcases lt_or_gt_of_ne hy with b | b
            · have := hs'.2 b; omega
            · exact b
          rcases List.mem_cons.1 hu1 with rfl | hu1
          · omega
          · have := (List.pairwise_cons.1 hu).1 u hu1 hy0
            omega
        · right
          rw [UpList, List.map_cons, List.pairwise_cons]
          refine ⟨fun z hz h0 => ?_, hu⟩
          exfalso
          have hy0 : y < 0 := hs'.1 (by omega)
          rcases List.mem_cons.1 hw1 with rfl | hw1
          · omega
          · rw [UpList, List.map_cons, List.pairwise_cons] at hu
            have := hu.1 (-w) (List.mem_map.2 ⟨w, hw1, rfl⟩) (by omega)
            omega

/-! ## From lists to polynomials -/

theorem rv_coeff (p : List Int) (i : Nat) : (rv p).coeff i = ((p.getD i 0 : Int) : ℝ) :=
  coeff_polyVal (v := fun c : Int => (c : ℝ)) (0 : Int) (by simp) p i

theorem rv_zero_iff (p : List Int) : rv p = 0 ↔ ∀ x ∈ p, x = 0 := by
  constructor
  · intro h x hx
    obtain ⟨i, hi, rfl⟩ := List.mem_iff_getElem.1 hx
    have := rv_coeff p i
    rw [h, coeff_zero, List.getD_eq_getElem _ _ hi] at this
    exact_mod_cast this.symm
  · intro h
    ext i
    rw [rv_coeff, coeff_zero]
    by_cases hi : i < p.length
    · rw [List.getD_eq_getElem _ _ hi, h _ (List.getElem_mem hi)]; simp
    · rw [List.getD_eq_default _ _ (by omega)]; simp

theorem upOnce_iff (p : List Int) : UpOnce (rv p) ↔ UpList (p.filter fun c => c != 0) := by
  rw [UpList, List.pairwise_filter, List.pairwise_iff_getElem]
  constructor
  · intro h i j hi hj hij _ _ h0
    have := h i j hij (by rw [rv_coeff, List.getD_eq_getElem _ _ hi]; exact_mod_cast h0)
    rw [rv_coeff, List.getD_eq_getElem _ _ hj] at this
    exact_mod_cast this
  · intro h n m hnm h0
    rw [rv_coeff] at h0 ⊢
    by_cases hm : m < p.length
    · have hn : n < p.length := by omega
      rw [List.getD_eq_getElem _ _ hn] at h0
      rw [List.getD_eq_getElem _ _ hm]
      have h0' : 0 < p[n] := by exact_mod_cast h0
      by_cases hz : p[m] = 0
      · rw [hz]; simp
      · have := h n m hn hm hnm (by simpa using h0'.ne') (by simpa using hz) h0'
        exact_mod_cast this
    · rw [List.getD_eq_default _ _ (by omega)]; simp

theorem rv_neg (p : List Int) : rv (p.map fun x => -x) = -rv p := by
  ext i
  rw [coeff_neg, rv_coeff, rv_coeff]
  by_cases hi : i < p.length
  · rw [List.getD_eq_getElem _ _ (by simpa using hi), List.getD_eq_getElem _ _ hi]; simp
  · rw [List.getD_eq_default _ _ (by simpa using hi), List.getD_eq_default _ _ (by omega)]; simp

theorem filter_neg (p : List Int) : (p.map fun x => -x).filter (fun c => c != 0) = (p.filter fun c => c != 0).map fun x => -x := by
  rw [List.filter_map]
  congr 1
  apply List.filter_congr
  intro x _
  rw [Bool.eq_iff_iff]
  simp

theorem mem_nz {p : List Int} {x : Int} (h : x ∈ p.filter fun c => c != 0) : x ∈ p ∧ x ≠ 0 := by
  simpa using h

/-- The count exists for a nonzero polynomial; it is at most one if the signs change at most once. -/
theorem signVariations_some (p : List Int) (h : rv p ≠ 0) :
    ∃ n, signVariations p = some n ∧ (UpOnce (rv p) ∨ UpOnce (-rv p) → n ≤ 1) := by
  have hne : (p.filter fun c => c != 0).length ≠ 0 := by
    intro e
    apply h
    rw [rv_zero_iff]
    intro x hx
    by_contra hc
    have : x ∈ p.filter fun c => c != 0 := by simp [hx, hc]
    rw [List.length_eq_zero_iff.1 e] at this
    simp at this
  refine ⟨signChanges (p.filter fun c => c != 0), by simp [signVariations, hne], ?_⟩
  rintro (hu | hu)
  · exact signChanges_up _ (fun x hx => (mem_nz hx).2) ((upOnce_iff p).1 hu)
  · rw [← signChanges_neg _ (fun x hx => (mem_nz hx).2), ← filter_neg]
    exact signChanges_up _ (fun x hx => (mem_nz hx).2) ((upOnce_iff _).1 (by rwa [rv_neg]))

/-- No sign change. -/
theorem signVariations_zero (p : List Int) (h : signVariations p = some 0) : (∀ n, 0 ≤ (rv p).coeff n) ∨ ∀ n, 0 ≤ (-rv p).coeff n := by
  have h0 : signChanges (p.filter fun c => c != 0) = 0 := by
    unfold signVariations at h
    simp only at h
    split at h
    · simp at h
    · exact Option.some.inj h
  have key : ∀ n, (rv p).coeff n = 0 ∨ ∃ x ∈ p.filter fun c => c != 0, (rv p).coeff n = (x : ℝ) := by
    intro n
    rw [rv_coeff]
    by_cases hn : n < p.length
    · rw [List.getD_eq_getElem _ _ hn]
      by_cases hz : p[n] = 0
      · left; rw [hz]; simp
      · right; exact ⟨p[n], by simp [hz], rfl⟩
    · left; rw [List.getD_eq_default _ _ (by omega)]; simp
  rcases signChanges_zero _ (fun x hx => (mem_nz hx).2) h0 with a | a
  · right
    intro n
    rw [coeff_neg]
    rcases key n with h1 | ⟨x, h1, h2⟩
    · rw [h1]; simp
    · rw [h2]
      have : (x : ℝ) < 0 := by exact_mod_cast a x h1
      linarith
  · left
    intro n
    rcases key n with h1 | ⟨x, h1, h2⟩
    · rw [h1]
    · rw [h2]
      exact_mod_cast (a x h1).le

/-- One sign change. -/
theorem signVariations_one (p : List Int) (h : signVariations p = some 1) :
    (UpOnce (rv p) ∨ UpOnce (-rv p)) ∧ (∃ n, (rv p).coeff n < 0) ∧ ∃ n, 0 < (rv p).coeff n := by
  have h0 : signChanges (p.filter fun c => c != 0) = 1 := by
    unfold signVariations at h
    simp only at h
    split at h
    · simp at h
    · exact Option.some.inj h
  obtain ⟨h1, ⟨x, hx, hx0⟩, ⟨y, hy, hy0⟩⟩ := signChanges_one _ (fun x hx => (mem_nz hx).2) h0
  have get : ∀ z ∈ p.filter (fun c => c != 0), ∃ n, (rv p).coeff n = (z : ℝ) := by
    intro z hz
    obtain ⟨i, hi, rfl⟩ := List.mem_iff_getElem.1 (mem_nz hz).1
    exact ⟨i, by rw [rv_coeff, List.getD_eq_getElem _ _ hi]⟩
  refine ⟨?_, ?_, ?_⟩
  · rcases h1 with h1 | h1
    · exact Or.inl ((upOnce_iff p).2 h1)
    · rw [← filter_neg] at h1
      right
      rw [← rv_neg]
      exact (upOnce_iff _).2 h1
  · obtain ⟨n, hn⟩ := get x hx
    exact ⟨n, by rw [hn]; exact_mod_cast hx0⟩
  · obtain ⟨n, hn⟩ := get y hy
    exact ⟨n, by rw [hn]; exact_mod_cast hy0⟩

end Verif.RealRoots
