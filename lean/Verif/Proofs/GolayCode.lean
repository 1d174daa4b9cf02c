import Verif.Proofs.GolayVec
import Verif.Proofs.GolaySextet
import Verif.Proofs.LatticeBase
import Verif.Proofs.FiniteField
import Verif.Proofs.Berlekamp
import Mathlib.FieldTheory.Finiteness
import Mathlib.Algebra.Module.ZMod

/-!
# The constructor of Golay codes
-/

namespace Verif.Golay
open Finset Verif.Rings

/-! ## Codes as families of sets -/

theorem two_cases (x : ZMod 2) : x = 0 ∨ x = 1 := by
  revert x; decide

theorem indicator_empty : indicator ∅ = 0 := by funext i; simp [indicator]

theorem indicator_symm (s t : Finset Pt) : indicator (symmDiff s t) = indicator s + indicator t := by
  funext i
  simp only [indicator, Pi.add_apply, mem_symmDiff]
  by_cases h1 : i ∈ s <;> by_cases h2 : i ∈ t <;> simp [h1, h2]
  decide

theorem indicator_inj {s t : Finset Pt} (h : indicator s = indicator t) : s = t := by
  ext i
  have := congrFun h i
  simp only [indicator] at this
  by_cases h1 : i ∈ s <;> by_cases h2 : i ∈ t <;> simp_all

theorem norm_indicator (s : Finset Pt) : hammingNorm (indicator s) = s.card := by
  unfold hammingNorm
  congr 1
  ext i
  simp [indicator]

/-- The set of the non-zero coordinates. -/
def supp (x : Fin 24 → ZMod 2) : Finset Pt := univ.filter fun i => x i = 1

theorem indicator_supp (x : Fin 24 → ZMod 2) : indicator (supp x) = x := by
  funext i
  simp only [indicator, supp, mem_filter, mem_univ, true_and]
  rcases two_cases (x i) with h | h <;> simp [h]

theorem supp_indicator (s : Finset Pt) : supp (indicator s) = s := indicator_inj (indicator_supp _)

open Classical in
/-- The sets whose indicator vectors are codewords. -/
noncomputable def famOf (C : Submodule (ZMod 2) (Fin 24 → ZMod 2)) : Finset (Finset Pt) := univ.filter fun s => indicator s ∈ C

theorem mem_famOf {C : Submodule (ZMod 2) (Fin 24 → ZMod 2)} {s : Finset Pt} : s ∈ famOf C ↔ indicator s ∈ C := by
  simp [famOf]

theorem card_famOf (C : Submodule (ZMod 2) (Fin 24 → ZMod 2)) : (famOf C).card = 2 ^ Module.finrank (ZMod 2) C := by
  classical
  haveI : Fintype C := Fintype.ofFinite _
  haveI : Fact (Nat.Prime 2) := ⟨Nat.prime_two⟩
  have h1 := Module.card_eq_pow_finrank (K := ZMod 2) (V := C)
  rw [ZMod.card] at h1
  rw [← h1, ← Fintype.card_coe]
  apply Fintype.card_congr
  exact {
    toFun := fun s => ⟨indicator s.1, mem_famOf.1 s.2⟩
    invFun := fun x => ⟨supp x.1, mem_famOf.2 (by rw [indicator_supp]; exact x.2)⟩
    left_inv := fun s => Subtype.ext (supp_indicator _)
    right_inv := fun x => Subtype.ext (indicator_supp _) }

theorem fam_of {C : Submodule (ZMod 2) (Fin 24 → ZMod 2)} (h : IsGolay C) : Fam (famOf C) where
  zero := by rw [mem_famOf, indicator_empty]; exact C.zero_mem
  add s hs t ht := by rw [mem_famOf] at *; rw [indicator_symm]; exact C.add_mem hs ht
  min s hs hne := by
    rw [← norm_indicator]
    refine h.weight _ (mem_famOf.1 hs) fun e => hne ?_
    rw [← indicator_empty] at e
    exact indicator_inj e
  card := by rw [card_famOf, h.dim]; norm_num

/-! ## Hash maps -/

theorem keys_insert {k v x : Vector24} {bl : List (Vector24 × Vector24)} :
    x ∈ (mapInsert k v bl).map Prod.fst ↔ x = k ∨ x ∈ bl.map Prod.fst := by
  induction bl with
  | nil => simp [mapInsert]
  | cons e bl ih =>
    unfold mapInsert
    split
    · rename_i he
      simp only [List.map_cons, List.mem_cons, he]
      tauto
    · simp only [List.map_cons, List.mem_cons, ih]
      tauto

theorem nodup_insert {k v : Vector24} {bl : List (Vector24 × Vector24)} (h : (bl.map Prod.fst).Nodup) :
    ((mapInsert k v bl).map Prod.fst).Nodup := by
  induction bl with
  | nil => simp [mapInsert]
  | cons e bl ih =>
    unfold mapInsert
    rw [List.map_cons, List.nodup_cons] at h
    split
    · rename_i he
      rw [List.map_cons, List.nodup_cons, ← he]
      exact h
    · rename_i he
      rw [List.map_cons, List.nodup_cons, keys_insert]
      exact ⟨fun hh => hh.elim (fun e' => he e') h.1, ih h.2⟩

theorem mem_insert' {k v : Vector24} {e : Vector24 × Vector24} {bl : List (Vector24 × Vector24)} (h : e ∈ mapInsert k v bl) :
    e = (k, v) ∨ e ∈ bl := by
  induction bl with
  | nil => simpa [mapInsert] using h
  | cons a bl ih =>
    unfold mapInsert at h
    split at h
    · rcases List.mem_cons.1 h with h | h
      · exact .inl h
      · exact .inr (List.mem_cons_of_mem _ h)
    · rcases List.mem_cons.1 h with h | h
      · exact .inr (h ▸ List.mem_cons_self)
      · rcases ih h with h | h
        · exact .inl h
        · exact .inr (List.mem_cons_of_mem _ h)

theorem get_of_mem {k : Vector24} {bl : List (Vector24 × Vector24)} (h : k ∈ bl.map Prod.fst) : ∃ o, mapGet k bl = some o ∧ (k, o) ∈ bl := by
  induction bl with
  | nil => simp at h
  | cons a bl ih =>
    unfold mapGet
    by_cases ha : a.1 = k
    · rw [if_pos ha]
      exact ⟨a.2, rfl, by rw [← ha]; exact List.mem_cons_self⟩
    · rw [if_neg ha]
      rw [List.map_cons, List.mem_cons] at h
      obtain ⟨o, h1, h2⟩ := ih (h.resolve_left fun e => ha e.symm)
      exact ⟨o, h1, List.mem_cons_of_mem _ h2⟩

/-! ## Combinations -/

theorem mem_combinations {k : Nat} {xs l : List Nat} : l ∈ combinations k xs ↔ l.Sublist xs ∧ l.length = k := by
  induction xs generalizing k l with
  | nil =>
    cases k with
    | zero => simp [combinations]
    | succ k =>
      simp only [combinations, List.not_mem_nil, List.sublist_nil, false_iff]
      rintro ⟨rfl, h⟩
      simp at h
  | cons x xs ih =>
    cases k with
    | zero =>
      simp only [combinations, List.mem_singleton, List.length_eq_zero_iff]
      exact ⟨fun h => ⟨h ▸ List.nil_sublist _, h⟩, fun h => h.2⟩
    | succ k =>
      simp only [combinations, List.mem_append, List.mem_map, ih]
      constructor
      · rintro (⟨a, ⟨h1, h2⟩, rfl⟩ | ⟨h1, h2⟩)
        · exact ⟨h1.cons_cons x, by simp [h2]⟩
        · exact ⟨h1.cons x, h2⟩
      · rintro ⟨h1, h2⟩
        cases h1 with
        | cons _ h => exact .inr ⟨h, h2⟩
        | cons_cons _ h => exact .inl ⟨_, ⟨h, by simpa using h2⟩, rfl⟩

/-! ## The blocks -/

/-- What holds of an entry of the table of a family. -/
def EntryOk (F : Finset (Finset Pt)) (e : Vector24 × Vector24) : Prop :=
  e.1.Valid ∧ e.1.set.card = 5 ∧ e.2.Valid ∧ e.2.set ∈ F ∧ e.2.set.card = 8 ∧ e.1.set ⊆ e.2.set

theorem insertOctad_spec {F : Finset (Finset Pt)} {v : Vector24} (hv : v.Valid) (hF : v.set ∈ F) (h8 : v.set.card = 8)
    {bl : List (Vector24 × Vector24)} (hn : (bl.map Prod.fst).Nodup) (hok : ∀ e ∈ bl, EntryOk F e) :
    ∃ bl', insertOctad v bl = some bl' ∧ (bl'.map Prod.fst).Nodup ∧ (∀ e ∈ bl', EntryOk F e) ∧
      (∀ x ∈ bl.map Prod.fst, x ∈ bl'.map Prod.fst) ∧ ∀ k : Vector24, k.Valid → k.set.card = 5 → k.set ⊆ v.set → k ∈ bl'.map Prod.fst := by
  have key : ∀ (L : List (List Nat)), (∀ l ∈ L, l.Sublist v.pts ∧ l.length = 5) → ∀ bl : List (Vector24 × Vector24),
      (bl.map Prod.fst).Nodup → (∀ e ∈ bl, EntryOk F e) →
      ∃ bl', L.foldlM (fun bl pts => (Vector24.fromPoints pts).map fun k => mapInsert k v bl) bl = some bl' ∧ (bl'.map Prod.fst).Nodup ∧
        (∀ e ∈ bl', EntryOk F e) ∧ (∀ x ∈ bl.map Prod.fst, x ∈ bl'.map Prod.fst) ∧
        ∀ l ∈ L, ∀ k, Vector24.fromPoints l = some k → k ∈ bl'.map Prod.fst := by
    intro L
    induction L with
    | nil => exact fun _ bl h1 h2 => ⟨bl, rfl, h1, h2, fun _ h => h, by simp⟩
    | cons l L ih =>
      intro hL bl h1 h2
      obtain ⟨hsub, hlen⟩ := hL l List.mem_cons_self
      obtain ⟨k, e1, e2, e3⟩ := fromPoints_spec (l := l) fun i hi => (mem_pts.1 (hsub.subset hi)).1
      have hks : k.set ⊆ v.set := by
        intro i hi
        rw [e3] at hi
        exact mem_pts'.1 (hsub.subset hi)
      have hk5 : k.set.card = 5 := by
        have hnd : l.Nodup := (nodup_pts v).sublist hsub
        rw [← length_pts, ← hlen]
        apply List.Perm.length_eq
        rw [List.perm_ext_iff_of_nodup (nodup_pts k) hnd]
        intro a
        rw [mem_pts]
        constructor
        · rintro ⟨ha, hb⟩; exact (e3 _).1 hb
        · intro ha
          have := (mem_pts.1 (hsub.subset ha)).1
          exact ⟨this, (e3 ⟨a, this⟩).2 ha⟩
      obtain ⟨bl', i1, i2, i3, i4, i5⟩ := ih (fun l' hl' => hL l' (List.mem_cons_of_mem _ hl')) (mapInsert k v bl) (nodup_insert h1) (by
        intro e he
        rcases mem_insert' he with rfl | he
        · exact ⟨e2, hk5, hv, hF, h8, hks⟩
        · exact h2 e he)
      refine ⟨bl', ?_, i2, i3, fun x hx => i4 x (keys_insert.2 (.inr hx)), ?_⟩
      · rw [List.foldlM_cons, e1]
        exact i1
      · intro l' hl' k' hk'
        rcases List.mem_cons.1 hl' with rfl | hl'
        · rw [e1] at hk'
          cases hk'
          exact i4 _ (keys_insert.2 (.inl rfl))
        · exact i5 l' hl' k' hk'
  obtain ⟨bl', i1, i2, i3, i4, i5⟩ := key (combinations 5 v.pts) (fun l hl => mem_combinations.1 hl) bl hn hok
  refine ⟨bl', i1, i2, i3, i4, ?_⟩
  intro k hk h5 hks
  have hsub : k.pts.Sublist v.pts := by
    have : k.pts = v.pts.filter k.has := by
      unfold Vector24.pts
      rw [List.filter_filter]
      apply List.filter_congr
      intro x hx
      rw [List.mem_range] at hx
      have a1 := has_iff (v := k) (i := ⟨x, hx⟩)
      have a2 := has_iff (v := v) (i := ⟨x, hx⟩)
      simp only at a1 a2
      cases hb : k.has x
      · rfl
      · rw [Bool.true_and]
        exact (a2.2 (hks (a1.1 hb))).symm
    rw [this]
    exact List.filter_sublist
  obtain ⟨k', e1, e2, e3⟩ := fromPoints_spec (l := k.pts) fun i hi => (mem_pts.1 hi).1
  have : k' = k := vec_ext e2 hk (by ext i; rw [e3, mem_pts'])
  subst this
  exact i5 k'.pts (mem_combinations.2 ⟨hsub, by rw [length_pts, h5]⟩) k' e1

/-- The loop over the span, when there is no low weight. -/
theorem spanLoop_ok {F : Finset (Finset Pt)} {basis : List Vector24} (val : List Bool → Vector24) (L : List (List Bool))
    (hval : ∀ cs ∈ L, spanVector basis cs = some (val cs) ∧ (val cs).Valid ∧ (val cs).set ∈ F)
    (hw : ∀ cs ∈ L, (val cs).set.card = 0 ∨ 8 ≤ (val cs).set.card)
    (bl : List (Vector24 × Vector24)) (hn : (bl.map Prod.fst).Nodup) (hok : ∀ e ∈ bl, EntryOk F e) :
    ∃ bl', spanLoop basis L bl = some (.ok bl') ∧ (bl'.map Prod.fst).Nodup ∧ (∀ e ∈ bl', EntryOk F e) ∧
      (∀ x ∈ bl.map Prod.fst, x ∈ bl'.map Prod.fst) ∧
      ∀ cs ∈ L, (val cs).set.card = 8 → ∀ k : Vector24, k.Valid → k.set.card = 5 → k.set ⊆ (val cs).set → k ∈ bl'.map Prod.fst := by
  induction L generalizing bl with
  | nil => exact ⟨bl, rfl, hn, hok, fun _ h => h, by simp⟩
  | cons cs L ih =>
    obtain ⟨v1, v2, v3⟩ := hval cs List.mem_cons_self
    have w := hw cs List.mem_cons_self
    have ih' := ih (fun c hc => hval c (List.mem_cons_of_mem _ hc)) (fun c hc => hw c (List.mem_cons_of_mem _ hc))
    unfold spanLoop
    rw [v1]
    simp only [Option.bind_eq_bind, Option.bind_some, weight_eq]
    rw [if_neg (by simp only [Bool.and_eq_true, decide_eq_true_eq]; omega)]
    by_cases h8 : (val cs).set.card = 8
    · rw [if_pos (by simp [h8])]
      obtain ⟨b1, i1, i2, i3, i4, i5⟩ := insertOctad_spec v2 v3 h8 hn hok
      obtain ⟨b2, j1, j2, j3, j4, j5⟩ := ih' b1 i2 i3
      refine ⟨b2, by rw [i1]; exact j1, j2, j3, fun x hx => j4 x (i4 x hx), ?_⟩
      intro c hc
      rcases List.mem_cons.1 hc with rfl | hc
      · exact fun _ k a b d => j4 k (i5 k a b d)
      · exact j5 c hc
    · rw [if_neg (by simp [h8])]
      obtain ⟨b2, j1, j2, j3, j4, j5⟩ := ih' bl hn hok
      refine ⟨b2, j1, j2, j3, j4, ?_⟩
      intro c hc
      rcases List.mem_cons.1 hc with rfl | hc
      · exact fun hh => absurd hh h8
      · exact j5 c hc

/-- The loop over the span, when there is a low weight. -/
theorem spanLoop_err {F : Finset (Finset Pt)} {basis : List Vector24} (val : List Bool → Vector24) (L : List (List Bool))
    (hval : ∀ cs ∈ L, spanVector basis cs = some (val cs) ∧ (val cs).Valid ∧ (val cs).set ∈ F)
    (hw : ∃ cs ∈ L, (val cs).set.card ≠ 0 ∧ (val cs).set.card < 8)
    (bl : List (Vector24 × Vector24)) (hn : (bl.map Prod.fst).Nodup) (hok : ∀ e ∈ bl, EntryOk F e) :
    spanLoop basis L bl = some (.error .lowWeight) := by
  induction L generalizing bl with
  | nil => simp at hw
  | cons cs L ih =>
    obtain ⟨v1, v2, v3⟩ := hval cs List.mem_cons_self
    have ih' := ih (fun c hc => hval c (List.mem_cons_of_mem _ hc))
    unfold spanLoop
    rw [v1]
    simp only [Option.bind_eq_bind, Option.bind_some, weight_eq]
    by_cases hlow : (val cs).set.card ≠ 0 ∧ (val cs).set.card < 8
    · rw [if_pos (by simp only [Bool.and_eq_true, decide_eq_true_eq]; omega)]
    · rw [if_neg (by simp only [Bool.and_eq_true, decide_eq_true_eq]; omega)]
      have hw' : ∃ cs ∈ L, (val cs).set.card ≠ 0 ∧ (val cs).set.card < 8 := by
        obtain ⟨c, hc, hh⟩ := hw
        rcases List.mem_cons.1 hc with rfl | hc
        · exact absurd hh hlow
        · exact ⟨c, hc, hh⟩
      by_cases h8 : (val cs).set.card = 8
      · rw [if_pos (by simp [h8])]
        obtain ⟨b1, i1, i2, i3, i4, i5⟩ := insertOctad_spec v2 v3 h8 hn hok
        rw [i1]
        exact ih' hw' b1 i2 i3
      · rw [if_neg (by simp [h8])]
        exact ih' hw' bl hn hok

end Verif.Golay
