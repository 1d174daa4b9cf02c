import Verif.Spec.Golay
import Verif.Proofs.GolayMath
import Mathlib.Data.Finset.Sort

/-!
# The masks of 24 points
-/

namespace Verif.Golay
open Finset Verif.Rings

theorem has_eq (v : Vector24) (i : Nat) : v.has i = v.points.testBit i := by
  unfold Vector24.has
  rw [Nat.one_shiftLeft]
  cases hb : v.points.testBit i
  · have : v.points &&& 2 ^ i = 0 := by
      apply Nat.eq_of_testBit_eq
      intro j
      rw [Nat.testBit_and, Nat.testBit_two_pow, Nat.zero_testBit]
      by_cases hij : i = j
      · subst hij; simp [hb]
      · simp [hij]
    rw [this]
    rfl
  · rw [bne_iff_ne]
    intro h0
    have := congrArg (fun n => n.testBit i) h0
    simp [Nat.testBit_and, hb] at this

theorem mem_set {v : Vector24} {i : Pt} : i ∈ v.set ↔ v.points.testBit i = true := by simp [Vector24.set]

theorem has_iff {v : Vector24} {i : Pt} : v.has i = true ↔ i ∈ v.set := by rw [has_eq, mem_set]

theorem contains_eq (v : Vector24) (i : Pt) : v.contains i = some (decide (i ∈ v.set)) := by
  have : decide ((i : Nat) < 24) = true := decide_eq_true i.2
  simp only [Vector24.contains, assertThat, this, if_true, Option.bind_eq_bind, Option.bind_some, Option.some.injEq]
  rw [Bool.eq_iff_iff, has_iff, decide_eq_true_iff]

theorem vec_ext {v w : Vector24} (hv : v.Valid) (hw : w.Valid) (h : v.set = w.set) : v = w := by
  have : v.points = w.points := by
    apply Nat.eq_of_testBit_eq
    intro i
    by_cases hi : i < 24
    · have := Finset.ext_iff.1 h ⟨i, hi⟩
      rw [mem_set, mem_set] at this
      rw [Bool.eq_iff_iff]
      exact this
    · have h1 : (2 : Nat) ^ 24 ≤ 2 ^ i := Nat.pow_le_pow_right (by omega) (by omega)
      rw [Nat.testBit_lt_two_pow (lt_of_lt_of_le hv h1), Nat.testBit_lt_two_pow (lt_of_lt_of_le hw h1)]
  cases v; cases w; cases this; rfl

theorem mem_pts {v : Vector24} {p : Nat} : p ∈ v.pts ↔ ∃ h : p < 24, (⟨p, h⟩ : Pt) ∈ v.set := by
  simp only [Vector24.pts, List.mem_filter, List.mem_range]
  constructor
  · rintro ⟨h1, h2⟩; exact ⟨h1, (has_iff (i := ⟨p, h1⟩)).1 h2⟩
  · rintro ⟨h1, h2⟩; exact ⟨h1, (has_iff (i := ⟨p, h1⟩)).2 h2⟩

theorem mem_pts' {v : Vector24} {p : Pt} : (p : Nat) ∈ v.pts ↔ p ∈ v.set := by
  rw [mem_pts]; exact ⟨fun ⟨_, h⟩ => h, fun h => ⟨p.2, h⟩⟩

theorem nodup_pts (v : Vector24) : v.pts.Nodup := List.nodup_range.filter _

/-- The points as elements of `Fin 24`. -/
def Vector24.fpts (v : Vector24) : List Pt := v.pts.pmap Fin.mk fun _ h => (mem_pts.1 h).1

theorem fpts_val (v : Vector24) : v.fpts.map Fin.val = v.pts := by
  unfold Vector24.fpts
  rw [List.map_pmap]
  simp

theorem mem_fpts {v : Vector24} {p : Pt} : p ∈ v.fpts ↔ p ∈ v.set := by
  rw [← mem_pts', ← fpts_val, List.mem_map]
  constructor
  · exact fun h => ⟨p, h, rfl⟩
  · rintro ⟨q, hq, e⟩; rwa [← Fin.ext e]

theorem nodup_fpts (v : Vector24) : v.fpts.Nodup := by
  have := nodup_pts v
  rw [← fpts_val] at this
  exact List.Nodup.of_map _ this

theorem fpts_toFinset (v : Vector24) : v.fpts.toFinset = v.set := by
  ext p; rw [List.mem_toFinset, mem_fpts]

theorem length_pts (v : Vector24) : v.pts.length = v.set.card := by
  rw [← fpts_val, List.length_map, ← fpts_toFinset, List.toFinset_card_of_nodup (nodup_fpts v)]

theorem weight_eq (v : Vector24) : v.weight = v.set.card := by
  rw [← length_pts]
  have key : ∀ (l : List Nat) (t : Nat), l.foldl (fun t i => if v.has i then t + 1 else t) t = t + (l.filter v.has).length := by
    intro l
    induction l with
    | nil => simp
    | cons a l ih =>
      intro t
      rw [List.foldl_cons, ih, List.filter_cons]
      split <;> simp_all <;> omega
  unfold Vector24.weight Vector24.pts
  rw [key, Nat.zero_add]

theorem testBit_or_shift (d i j : Nat) : (d ||| 1 <<< i).testBit j = (d.testBit j || decide (i = j)) := by
  rw [Nat.testBit_or, Nat.one_shiftLeft, Nat.testBit_two_pow]

theorem or_shift_lt {d i : Nat} (hd : d < 2 ^ 24) (hi : i < 24) : d ||| 1 <<< i < 2 ^ 24 := by
  apply Nat.or_lt_two_pow hd
  rw [Nat.one_shiftLeft]
  exact Nat.pow_lt_pow_right (by omega) hi

theorem fromPoints_loop (l : List Nat) (d : Nat) (hd : d < 2 ^ 24) (hl : ∀ i ∈ l, i < 24) :
    ∃ r, l.foldlM (fun data i => do
      assertThat (decide (i < 24))
      some (data ||| 1 <<< i)) d = some r ∧ r < 2 ^ 24 ∧ ∀ j, r.testBit j = true ↔ d.testBit j = true ∨ j ∈ l := by
  induction l generalizing d with
  | nil => exact ⟨d, rfl, hd, by simp⟩
  | cons a l ih =>
    have ha := hl a List.mem_cons_self
    obtain ⟨r, h1, h2, h3⟩ := ih (d ||| 1 <<< a) (or_shift_lt hd ha) (fun i hi => hl i (List.mem_cons_of_mem _ hi))
    refine ⟨r, ?_, h2, ?_⟩
    · rw [List.foldlM_cons]
      simp only [assertThat, ha, decide_true, if_true, Option.bind_eq_bind, Option.bind_some]
      exact h1
    · intro j
      rw [h3, testBit_or_shift, Bool.or_eq_true, decide_eq_true_iff, List.mem_cons]
      constructor
      · rintro ((h | h) | h)
        · exact .inl h
        · exact .inr (.inl h.symm)
        · exact .inr (.inr h)
      · rintro (h | h | h)
        · exact .inl (.inl h)
        · exact .inl (.inr h.symm)
        · exact .inr h

theorem fromPoints_spec {l : List Nat} (hl : ∀ i ∈ l, i < 24) :
    ∃ v, Vector24.fromPoints l = some v ∧ v.Valid ∧ ∀ i : Pt, i ∈ v.set ↔ (i : Nat) ∈ l := by
  obtain ⟨r, h1, h2, h3⟩ := fromPoints_loop l 0 (by norm_num) hl
  refine ⟨⟨r⟩, ?_, h2, ?_⟩
  · unfold Vector24.fromPoints
    rw [h1]
    rfl
  · intro i
    rw [mem_set, h3]
    simp

theorem fromPoints_none {l : List Nat} (h : ∃ i ∈ l, 24 ≤ i) : Vector24.fromPoints l = none := by
  have key : ∀ (l : List Nat) (d : Nat), (∃ i ∈ l, 24 ≤ i) → l.foldlM (fun data i => do
      assertThat (decide (i < 24))
      some (data ||| 1 <<< i)) d = none := by
    intro l
    induction l with
    | nil => simp
    | cons a l ih =>
      intro d hh
      rw [List.foldlM_cons]
      by_cases ha : a < 24
      · simp only [assertThat, ha, decide_true, if_true, Option.bind_eq_bind, Option.bind_some]
        apply ih
        obtain ⟨i, hi, h24⟩ := hh
        rcases List.mem_cons.1 hi with rfl | hi
        · omega
        · exact ⟨i, hi, h24⟩
      · simp [assertThat, ha]
  unfold Vector24.fromPoints
  rw [key l 0 h]
  rfl

/-- `from_points` on the numbers of a list of points -/
theorem fromPoints_fin (l : List Pt) : ∃ v, Vector24.fromPoints (l.map Fin.val) = some v ∧ v.Valid ∧ v.set = l.toFinset := by
  obtain ⟨v, h1, h2, h3⟩ := fromPoints_spec (l := l.map Fin.val) (by
    intro i hi
    obtain ⟨p, -, rfl⟩ := List.mem_map.1 hi
    exact p.2)
  refine ⟨v, h1, h2, ?_⟩
  ext i
  rw [h3, List.mem_toFinset, List.mem_map]
  constructor
  · rintro ⟨q, hq, e⟩; rwa [← Fin.ext e]
  · exact fun h => ⟨i, h, rfl⟩

theorem exists_vec (s : Finset Pt) : ∃ v : Vector24, v.Valid ∧ v.set = s := by
  obtain ⟨v, -, h2, h3⟩ := fromPoints_fin s.toList
  exact ⟨v, h2, by rw [h3, toList_toFinset]⟩

theorem set_zero : Vector24.zero.set = ∅ := by
  ext i; rw [mem_set]; simp [Vector24.zero]

theorem valid_zero : Vector24.zero.Valid := by simp [Vector24.Valid, Vector24.zero]

theorem set_add (a b : Vector24) : (a.add b).set = symmDiff a.set b.set := by
  ext i
  rw [mem_set, mem_symmDiff, mem_set, mem_set]
  simp only [Vector24.add, Nat.testBit_xor]
  cases a.points.testBit i <;> cases b.points.testBit i <;> simp

theorem set_and (a b : Vector24) : (a.and b).set = a.set ∩ b.set := by
  ext i
  rw [mem_set, mem_inter, mem_set, mem_set]
  simp only [Vector24.and, Nat.testBit_and, Bool.and_eq_true]

theorem set_or (a b : Vector24) : (a.or b).set = a.set ∪ b.set := by
  ext i
  rw [mem_set, mem_union, mem_set, mem_set]
  simp only [Vector24.or, Nat.testBit_or, Bool.or_eq_true]

theorem valid_add {a b : Vector24} (ha : a.Valid) (hb : b.Valid) : (a.add b).Valid := Nat.xor_lt_two_pow ha hb
theorem valid_and {a b : Vector24} (ha : a.Valid) : (a.and b).Valid := lt_of_le_of_lt Nat.and_le_left ha
theorem valid_or {a b : Vector24} (ha : a.Valid) (hb : b.Valid) : (a.or b).Valid := Nat.or_lt_two_pow ha hb

theorem new_spec {f : Nat → Option Bool} {g : Nat → Bool} (hf : ∀ i < 24, f i = some (g i)) :
    ∃ v, Vector24.new f = some v ∧ v.Valid ∧ ∀ i : Pt, i ∈ v.set ↔ g i = true := by
  have key : ∀ (l : List Nat) (d : Nat), d < 2 ^ 24 → (∀ i ∈ l, i < 24) → ∃ r, l.foldlM (fun p i => (f i).map fun b => if b then p ||| 1 <<< i else p) d = some r ∧
      r < 2 ^ 24 ∧ ∀ j, r.testBit j = true ↔ d.testBit j = true ∨ (j ∈ l ∧ g j = true) := by
    intro l
    induction l with
    | nil => exact fun d hd _ => ⟨d, rfl, hd, by simp⟩
    | cons a l ih =>
      intro d hd hl
      have ha := hl a List.mem_cons_self
      rw [List.foldlM_cons, hf a ha]
      simp only [Option.map_some, Option.bind_eq_bind, Option.bind_some]
      by_cases hg : g a = true
      · obtain ⟨r, h1, h2, h3⟩ := ih (d ||| 1 <<< a) (or_shift_lt hd ha) (fun i hi => hl i (List.mem_cons_of_mem _ hi))
        refine ⟨r, by rw [if_pos hg]; exact h1, h2, ?_⟩
        intro j
        rw [h3, testBit_or_shift, Bool.or_eq_true, decide_eq_true_iff, List.mem_cons]
        constructor
        · rintro ((h | h) | h)
          · exact .inl h
          · exact .inr ⟨.inl h.symm, h ▸ hg⟩
          · exact .inr ⟨.inr h.1, h.2⟩
        · rintro (h | ⟨h | h, h'⟩)
          · exact .inl (.inl h)
          · exact .inl (.inr h.symm)
          · exact .inr ⟨h, h'⟩
      · obtain ⟨r, h1, h2, h3⟩ := ih d hd (fun i hi => hl i (List.mem_cons_of_mem _ hi))
        refine ⟨r, by rw [if_neg hg]; exact h1, h2, ?_⟩
        intro j
        rw [h3, List.mem_cons]
        constructor
        · rintro (h | h)
          · exact .inl h
          · exact .inr ⟨.inr h.1, h.2⟩
        · rintro (h | ⟨h | h, h'⟩)
          · exact .inl h
          · rw [h] at h'; exact absurd h' hg
          · exact .inr ⟨h, h'⟩
  obtain ⟨r, h1, h2, h3⟩ := key (List.range 24) 0 (by norm_num) (fun i hi => List.mem_range.1 hi)
  refine ⟨⟨r⟩, ?_, h2, ?_⟩
  · unfold Vector24.new
    rw [h1]
    rfl
  · intro i
    rw [mem_set, h3]
    simp [i.2]

end Verif.Golay
