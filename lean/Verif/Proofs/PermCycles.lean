import Verif.Proofs.Perm
import Mathlib.GroupTheory.Perm.List
import Mathlib.Dynamics.PeriodicPts.Defs

namespace Verif.Perm

open Function

theorem iterate_lt (p : List Nat) (h : IsPermList p) (x k : Nat) (hx : x < p.length) : (call p)^[k] x < p.length := by
  induction k with
  | zero => exact hx
  | succ k ih => rw [iterate_succ_apply']; exact call_lt p h _ _ (le_refl _) ih

theorem toFin_pow (p : List Nat) (h : IsPermList p) (i : Fin p.length) (k : Nat) :
    (((toFin p h p.length (le_refl _)) ^ k) i).val = (call p)^[k] i.val := by
  induction k with
  | zero => rfl
  | succ k ih => rw [pow_succ', Equiv.Perm.mul_apply, toFin_val, ih, iterate_succ_apply']

theorem minimalPeriod_pos (p : List Nat) (h : IsPermList p) (x : Nat) (hx : x < p.length) :
    0 < minimalPeriod (call p) x := by
  apply minimalPeriod_pos_of_mem_periodicPts
  refine ⟨orderOf (toFin p h p.length (le_refl _)), orderOf_pos _, ?_⟩
  have := toFin_pow p h ⟨x, hx⟩ (orderOf (toFin p h p.length (le_refl _)))
  rw [pow_orderOf_eq_one] at this
  exact this.symm

/-- the orbit of `x` as a list starting at `x` -/
noncomputable def orb (p : List Nat) (x : Nat) : List Nat :=
  (List.range (minimalPeriod (call p) x)).map fun k => (call p)^[k] x

theorem orb_nodup (p : List Nat) (x : Nat) : (orb p x).Nodup := by
  unfold orb
  rw [List.nodup_map_iff_inj_on List.nodup_range]
  intro a ha b hb hab
  exact iterate_injOn_Iio_minimalPeriod (List.mem_range.1 ha) (List.mem_range.1 hb) hab

theorem orb_length (p : List Nat) (x : Nat) : (orb p x).length = minimalPeriod (call p) x := by simp [orb]

theorem orb_getElem (p : List Nat) (x i : Nat) (h : i < (orb p x).length) : (orb p x)[i] = (call p)^[i] x := by
  simp [orb]

theorem iterate_mod (p : List Nat) (x k : Nat) :
    (call p)^[k % minimalPeriod (call p) x] x = (call p)^[k] x := iterate_mod_minimalPeriod_eq

theorem mem_orb (p : List Nat) (h : IsPermList p) (x : Nat) (hx : x < p.length) (y : Nat) :
    y ∈ orb p x ↔ ∃ k, (call p)^[k] x = y := by
  unfold orb
  rw [List.mem_map]
  constructor
  · rintro ⟨k, _, rfl⟩; exact ⟨k, rfl⟩
  · rintro ⟨k, rfl⟩
    exact ⟨k % minimalPeriod (call p) x, List.mem_range.2 (Nat.mod_lt _ (minimalPeriod_pos p h x hx)), iterate_mod p x k⟩

theorem call_mem_orb (p : List Nat) (h : IsPermList p) (x : Nat) (hx : x < p.length) (y : Nat) :
    call p y ∈ orb p x ↔ y ∈ orb p x := by
  rw [mem_orb p h x hx, mem_orb p h x hx]
  constructor
  · rintro ⟨k, hk⟩
    cases k with
    | zero =>
      have hpos := minimalPeriod_pos p h x hx
      refine ⟨minimalPeriod (call p) x - 1, ?_⟩
      apply call_injective p h
      rw [← hk, ← iterate_succ_apply' (call p), show (minimalPeriod (call p) x - 1).succ = minimalPeriod (call p) x by omega]
      exact iterate_minimalPeriod
    | succ k =>
      refine ⟨k, call_injective p h ?_⟩
      rw [← hk, iterate_succ_apply']
  · rintro ⟨k, rfl⟩
    exact ⟨k + 1, iterate_succ_apply' _ _ _⟩

theorem formPerm_orb (p : List Nat) (h : IsPermList p) (x : Nat) (hx : x < p.length) (y : Nat) (hy : y ∈ orb p x) :
    (orb p x).formPerm y = call p y := by
  obtain ⟨i, hi, rfl⟩ := List.getElem_of_mem hy
  rw [List.formPerm_apply_getElem _ (orb_nodup p x), orb_getElem, orb_getElem]
  rw [orb_length, iterate_mod, iterate_succ_apply']

theorem orb_length_ge_two (p : List Nat) (h : IsPermList p) (x : Nat) (hx : x < p.length) :
    2 ≤ (orb p x).length ↔ call p x ≠ x := by
  rw [orb_length]
  have hpos := minimalPeriod_pos p h x hx
  have : minimalPeriod (call p) x = 1 ↔ IsFixedPt (call p) x := minimalPeriod_eq_one_iff_isFixedPt
  have h2 : IsFixedPt (call p) x ↔ call p x = x := Iff.rfl
  rw [h2] at this
  constructor
  · intro hge he; have := this.2 he; omega
  · intro hne
    by_contra hc
    exact hne (this.1 (by omega))

theorem cycleLoop_spec (p : List Nat) (h : IsPermList p) (x : Nat) (hx : x < p.length) (missing : List Nat) :
    ∀ d k, k + d + 1 = minimalPeriod (call p) x → ∀ miss, miss = missing.filter (fun y => y ∉ (List.range k).map fun k => (call p)^[k] x) →
    cycleLoop p x ((call p)^[k] x) ((List.range k).map fun k => (call p)^[k] x) miss =
      some (orb p x, missing.filter fun y => y ∉ orb p x) := by
  intro d
  induction d with
  | zero =>
    intro k hk miss hm
    rw [cycleLoop]
    have hlt := iterate_lt p h x k hx
    rw [List.getElem?_eq_getElem hlt, ← call_of_lt p _ hlt, ← iterate_succ_apply' (call p)]
    simp only [Option.bind_eq_bind, Option.bind_some]
    have he : (call p)^[k + 1] x = x := by
      rw [show k + 1 = minimalPeriod (call p) x by omega]; exact iterate_minimalPeriod
    rw [if_pos he]
    have horb : orb p x = ((List.range k).map fun k => (call p)^[k] x) ++ [(call p)^[k] x] := by
      unfold orb
      rw [← hk, show k + 0 + 1 = k + 1 from rfl, List.range_succ, List.map_append]; rfl
    rw [horb, hm, List.filter_filter]
    congr 2
    apply List.filter_congr
    intro y _
    simp only [List.mem_append, List.mem_singleton, not_or, Bool.decide_and, ne_eq, decide_not]
    rw [Bool.and_comm]
  | succ d ih =>
    intro k hk miss hm
    rw [cycleLoop]
    have hlt := iterate_lt p h x k hx
    rw [List.getElem?_eq_getElem hlt, ← call_of_lt p _ hlt, ← iterate_succ_apply' (call p)]
    simp only [Option.bind_eq_bind, Option.bind_some]
    have hne : (call p)^[k + 1] x ≠ x := by
      intro he
      have hdvd := IsPeriodicPt.minimalPeriod_dvd (f := call p) (x := x) (n := k + 1) he
      have := Nat.le_of_dvd (by omega) hdvd
      omega
    rw [if_neg hne]
    have hacc : ((List.range k).map fun k => (call p)^[k] x) ++ [(call p)^[k] x] =
        (List.range (k + 1)).map fun k => (call p)^[k] x := by
      rw [List.range_succ, List.map_append]; rfl
    rw [hacc]
    apply ih (k + 1) (by omega)
    rw [hm, ← hacc, List.filter_filter]
    apply List.filter_congr
    intro y _
    simp only [List.mem_append, List.mem_singleton, not_or, Bool.decide_and, ne_eq, decide_not]
    rw [Bool.and_comm]

theorem cyclesLoop_spec (keepAll : Bool) (p : List Nat) (h : IsPermList p) :
    ∀ n, ∀ missing cs, missing.length ≤ n → (∀ y ∈ missing, y < p.length) → (∀ y ∈ missing, call p y ∈ missing) →
    ∃ new, cyclesLoop keepAll p missing cs = some (cs ++ new) ∧
      (∀ c ∈ new, ∃ x ∈ missing, c = orb p x ∧ (keepAll = true ∨ 2 ≤ c.length)) ∧
      (∀ y ∈ missing, (keepAll = true ∨ call p y ≠ y) → ∃ c ∈ new, y ∈ c) ∧
      (∀ c ∈ new, ∀ y ∈ c, y ∈ missing) ∧ new.Pairwise List.Disjoint := by
  intro n
  induction n with
  | zero =>
    intro missing cs hlen _ _
    have : missing = [] := List.length_eq_zero_iff.1 (by omega)
    subst this
    refine ⟨[], ?_, by simp⟩
    rw [cyclesLoop]; simp
  | succ n ih =>
    intro missing cs hlen hlt hcl
    rcases hmin : missing.min? with _ | x
    · refine ⟨[], ?_, ?_⟩
      · rw [cyclesLoop, hmin]; simp
      · have : missing = [] := List.min?_eq_none_iff.1 hmin
        subst this; simp
    · have hxm : x ∈ missing := List.min?_mem hmin
      have hx := hlt x hxm
      have hpos := minimalPeriod_pos p h x hx
      have hcyc := cycleLoop_spec p h x hx missing (minimalPeriod (call p) x - 1) 0 (by omega) missing (by simp)
      simp only [iterate_zero, id, List.range_zero, List.map_nil] at hcyc
      have hxorb : x ∈ orb p x := (mem_orb p h x hx x).2 ⟨0, rfl⟩
      have horbmiss : ∀ y ∈ orb p x, y ∈ missing := by
        intro y hy
        obtain ⟨k, rfl⟩ := (mem_orb p h x hx y).1 hy
        clear hy
        induction k with
        | zero => exact hxm
        | succ k ihk => rw [iterate_succ_apply']; exact hcl _ ihk
      have hlen' : (missing.filter fun y => y ∉ orb p x).length ≤ n := by
        have : (missing.filter fun y => y ∉ orb p x).length < missing.length := by
          apply List.length_filter_lt_length_iff_exists.2
          exact ⟨x, hxm, by simp [hxorb]⟩
        omega
      obtain ⟨new, e1, e2, e3, e4, e5⟩ := ih (missing.filter fun y => y ∉ orb p x)
        (if keepAll || decide ((orb p x).length ≥ 2) then cs ++ [orb p x] else cs) hlen'
        (fun y hy => hlt y (List.mem_filter.1 hy).1)
        (by
          intro y hy
          rw [List.mem_filter] at hy ⊢
          refine ⟨hcl y hy.1, ?_⟩
          simp only [decide_eq_true_eq] at hy ⊢
          rw [call_mem_orb p h x hx]; exact hy.2)
      have hrun : cyclesLoop keepAll p missing cs =
          cyclesLoop keepAll p (missing.filter fun y => y ∉ orb p x)
            (if keepAll || decide ((orb p x).length ≥ 2) then cs ++ [orb p x] else cs) := by
        rw [cyclesLoop, hmin]
        simp only
        rw [hcyc]; rfl
      have hdis : ∀ c ∈ new, (orb p x).Disjoint c := by
        intro c hc y hy1 hy2
        have := e4 c hc y hy2
        rw [List.mem_filter] at this
        simp only [decide_eq_true_eq] at this
        exact this.2 hy1
      by_cases hkeep : (keepAll || decide ((orb p x).length ≥ 2)) = true
      · rw [if_pos hkeep] at e1 hrun
        refine ⟨orb p x :: new, ?_, ?_, ?_, ?_, ?_⟩
        · rw [hrun, e1]; simp
        · intro c hc
          rcases List.mem_cons.1 hc with rfl | hc
          · exact ⟨x, hxm, rfl, by simpa using hkeep⟩
          · obtain ⟨y, hy, hcy⟩ := e2 c hc
            exact ⟨y, (List.mem_filter.1 hy).1, hcy⟩
        · intro y hy hmv
          by_cases hyo : y ∈ orb p x
          · exact ⟨orb p x, by simp, hyo⟩
          · obtain ⟨c, hc, hyc⟩ := e3 y (List.mem_filter.2 ⟨hy, by simpa using hyo⟩) hmv
            exact ⟨c, by simp [hc], hyc⟩
        · intro c hc y hy
          rcases List.mem_cons.1 hc with rfl | hc
          · exact horbmiss y hy
          · exact (List.mem_filter.1 (e4 c hc y hy)).1
        · exact List.pairwise_cons.2 ⟨hdis, e5⟩
      · rw [if_neg hkeep] at e1 hrun
        simp only [Bool.or_eq_true, decide_eq_true_eq, not_or, ge_iff_le] at hkeep
        refine ⟨new, by rw [hrun, e1], ?_, ?_, ?_, e5⟩
        · intro c hc
          obtain ⟨y, hy, hcy⟩ := e2 c hc
          exact ⟨y, (List.mem_filter.1 hy).1, hcy⟩
        · intro y hy hmv
          have hyo : y ∉ orb p x := by
            intro hyo
            have hmv' : call p y ≠ y := hmv.resolve_left hkeep.1
            have hfix : ¬ call p x ≠ x := fun hc => hkeep.2 ((orb_length_ge_two p h x hx).2 hc)
            push Not at hfix
            obtain ⟨k, rfl⟩ := (mem_orb p h x hx y).1 hyo
            have : (call p)^[k] x = x := iterate_fixed hfix k
            rw [this] at hmv'
            exact hmv' hfix
          exact e3 y (List.mem_filter.2 ⟨hy, by simpa using hyo⟩) hmv
        · intro c hc y hy
          exact (List.mem_filter.1 (e4 c hc y hy)).1

theorem formPerm_prod (p : List Nat) (cs : List (List Nat)) (hdis : cs.Pairwise List.Disjoint)
    (hform : ∀ c ∈ cs, ∀ y ∈ c, c.formPerm y = call p y) (y : Nat) :
    ((cs.map List.formPerm).prod) y = if ∃ c ∈ cs, y ∈ c then call p y else y := by
  induction cs with
  | nil => simp
  | cons c t ih =>
    rw [List.pairwise_cons] at hdis
    rw [List.map_cons, List.prod_cons, Equiv.Perm.mul_apply, ih hdis.2 (fun d hd => hform d (by simp [hd]))]
    by_cases hyt : ∃ d ∈ t, y ∈ d
    · rw [if_pos hyt, if_pos (by obtain ⟨d, hd, hy⟩ := hyt; exact ⟨d, by simp [hd], hy⟩)]
      obtain ⟨d, hd, hy⟩ := hyt
      have h1 : call p y ∈ d := by
        rw [← hform d (by simp [hd]) y hy]
        exact (List.formPerm_mem_iff_mem).2 hy
      apply List.formPerm_apply_of_notMem
      intro hc
      exact hdis.1 d hd hc h1
    · rw [if_neg hyt]
      by_cases hyc : y ∈ c
      · rw [if_pos ⟨c, by simp, hyc⟩]
        exact hform c (by simp) y hyc
      · rw [if_neg, List.formPerm_apply_of_notMem hyc]
        rintro ⟨d, hd, hy⟩
        rcases List.mem_cons.1 hd with rfl | hd
        · exact hyc hy
        · exact hyt ⟨d, hd, hy⟩

end Verif.Perm
