import Verif.Proofs.RealAlgRoots

/-!
# Identification of a root from shrinking intervals
-/

namespace Verif.RealRoots

open Polynomial Verif.Rings

/-- The list of all roots of a squarefree polynomial. -/
theorem allRoots_spec {p : List Int} (h0 : rv p ≠ 0) (hsq : Squarefree (rv p)) :
    ∃ R rs, allRootsSquarefree p = some R ∧ R.poly = p ∧ R.All rs := by
  obtain ⟨R, rs, h1, h2, h3, h4⟩ := rootsSquarefree_spec h0 hsq false false (oa := none) (ob := none) trivial
  refine ⟨R, rs, h1, h2, h3, fun x => ?_⟩
  rw [h4, h2]
  simp [InRange]

/-- Everything about one factor of a polynomial. -/
structure FactorOk (p : List Int) : Prop where
  reduced : PolyReduced (id : Int → Int) p
  irreducible : Irreducible (ipoly p)
  positive : 0 < (ipoly p).leadingCoeff

theorem irr_squarefree_real {p : List Int} (h : Irreducible (ipoly p)) : Squarefree (rv p) := by
  by_cases hd : (ipoly p).natDegree = 0
  · have e : rv p = C ((rv p).coeff 0) := eq_C_of_natDegree_eq_zero (by rw [rv_natDegree, hd])
    have h0 := rv_ne_zero.2 h.ne_zero
    have hc : (rv p).coeff 0 ≠ 0 := fun e' => h0 (by rw [e, e', C_0])
    have hu : IsUnit (rv p) := by rw [e]; exact isUnit_C.2 (isUnit_iff_ne_zero.2 hc)
    exact hu.squarefree
  · rw [rv_eq]
    exact squarefree_real (irr_primitive h (by omega)) h.squarefree

theorem FacOk.spec {fac : Fac} (hf : FacOk fac) {p : List Int} (h0 : ipoly p ≠ 0) :
    ∃ pf, fac p = some (some pf) ∧ pf.Valid intPoly (polyVal (id : Int → Int)) ∧ Associated (pf.denote (polyVal (id : Int → Int))) (ipoly p) ∧
      ∀ q ∈ pf.factors, FactorOk q.1 ∧ ipoly q.1 ∣ ipoly p := by
  obtain ⟨pf, e, hv, ha⟩ := hf.factors p h0
  exact ⟨pf, e, hv, ha, fun q hq => ⟨⟨hf.reduced p pf e q hq, hv.irreducible q hq, fav_pos (hv.fav q hq) (hv.irreducible q hq).ne_zero⟩,
    (denote_dvd hq (hv.pos q hq)).trans ha.dvd⟩⟩

/-- A pair of lists related pairwise has a third list for every total relation. -/
theorem exists_forall₂ {α β : Type} {P : α → β → Prop} (l : List α) (h : ∀ x ∈ l, ∃ y, P x y) : ∃ l', List.Forall₂ P l l' := by
  induction l with
  | nil => exact ⟨[], .nil⟩
  | cons x l ih =>
    obtain ⟨y, hy⟩ := h x (by simp)
    obtain ⟨l', hl⟩ := ih (fun z hz => h z (by simp [hz]))
    exact ⟨y :: l', .cons hy hl⟩

theorem mapM_groups (l : List (List Int × Nat)) (h : ∀ q ∈ l, FactorOk q.1) :
    ∃ groups rss, l.mapM (fun fk => allRootsSquarefree fk.1) = some groups ∧ List.Forall₂ SqRoots.All groups rss ∧
      groups.map (·.poly) = l.map (·.1) := by
  induction l with
  | nil => exact ⟨[], [], rfl, .nil, rfl⟩
  | cons q l ih =>
    obtain ⟨groups, rss, e, e1, e2⟩ := ih (fun z hz => h z (by simp [hz]))
    have hq := (h q (by simp)).irreducible
    obtain ⟨R, rs, r1, r2, r3⟩ := allRoots_spec (rv_ne_zero.2 hq.ne_zero) (irr_squarefree_real hq)
    exact ⟨R :: groups, rs :: rss, by rw [List.mapM_cons, r1, e]; rfl, .cons r3 e1, by simp [r2, e2]⟩

/-- The width of the interval at a pair of indices. -/
def HasWidth (groups : List SqRoots) (ij : Nat × Nat) (w : ℚ) : Prop :=
  ∃ R iv, groups[ij.1]? = some R ∧ R.ivs[ij.2]? = some iv ∧ iv.hi - iv.lo ≤ w

/-- One refinement of one group. -/
theorem refineGroup_spec {s : ℚ → ℚ → ℚ} (hs : SimplestOk s) {groups : List SqRoots} {rss : List (List ℝ)} (h : List.Forall₂ SqRoots.All groups rss)
    {ij : Nat × Nat} {w0 : ℚ} (hw0 : HasWidth groups ij w0) :
    ∃ groups', refineGroup s groups ij = some groups' ∧ List.Forall₂ SqRoots.All groups' rss ∧ groups'.map (·.poly) = groups.map (·.poly) ∧
      ∀ kl w, HasWidth groups kl w → HasWidth groups' kl w ∧ (kl = ij → HasWidth groups' kl (2 / 3 * w)) := by
  obtain ⟨R, iv, r1, r2, -⟩ := hw0
  obtain ⟨hi, rfl⟩ := List.getElem?_eq_some_iff.1 r1
  obtain ⟨hj, rfl⟩ := List.getElem?_eq_some_iff.1 r2
  have hall := (List.forall₂_iff_get.1 h).2 ij.1 hi (h.length_eq ▸ hi)
  simp only [List.get_eq_getElem] at hall
  obtain ⟨j, j1, j2, j3, j4, j5⟩ := SqRoots.refine_spec hs hall.isolates hj
  refine ⟨groups.set ij.1 { groups[ij.1] with ivs := groups[ij.1].ivs.set ij.2 j }, ?_, ?_, ?_, ?_⟩
  · unfold refineGroup
    rw [r1]
    simp only [Option.bind_eq_bind, Option.bind_some, j1]
  · rw [List.forall₂_iff_get]
    refine ⟨by simpa using h.length_eq, fun k h1 h2 => ?_⟩
    simp only [List.get_eq_getElem, List.getElem_set]
    by_cases hk : ij.1 = k
    · subst hk
      rw [if_pos rfl]
      exact ⟨j5, hall.all⟩
    · rw [if_neg hk]
      exact (List.forall₂_iff_get.1 h).2 k (by simpa using h1) h2
  · rw [List.map_set]
    apply List.ext_getElem?
    intro k
    rw [List.getElem?_set]
    split
    · rename_i hk
      subst hk
      split
      · simp [hi]
      · simp_all
    · rfl
  · rintro ⟨k, l⟩ w ⟨R', iv', q1, q2, q3⟩
    obtain ⟨hk, rfl⟩ := List.getElem?_eq_some_iff.1 q1
    obtain ⟨hl, rfl⟩ := List.getElem?_eq_some_iff.1 q2
    have hgen : ∀ w', (ij.1 = k → ij.2 = l → j.hi - j.lo ≤ w') → (¬ (ij.1 = k ∧ ij.2 = l) → (groups[k].ivs[l].hi - groups[k].ivs[l].lo ≤ w')) →
        HasWidth (groups.set ij.1 { groups[ij.1] with ivs := groups[ij.1].ivs.set ij.2 j }) (k, l) w' := by
      intro w' a1 a2
      by_cases e1 : ij.1 = k
      · subst e1
        by_cases e2 : ij.2 = l
        · subst e2
          refine ⟨_, j, List.getElem?_set_self hk, ?_, a1 rfl rfl⟩
          exact List.getElem?_set_self hl
        · refine ⟨_, groups[ij.1].ivs[l], List.getElem?_set_self hk, ?_, a2 (fun e => e2 e.2)⟩
          change (groups[ij.1].ivs.set ij.2 j)[l]? = _
          rw [List.getElem?_set_ne e2]
          exact q2
      · exact ⟨_, _, by rw [List.getElem?_set_ne e1]; exact q1, q2, a2 (fun e => e1 e.1)⟩
    constructor
    · apply hgen
      · rintro rfl rfl
        simp only at q3
        linarith
      · intro _; exact q3
    · rintro rfl
      apply hgen
      · intro _ _
        simp only at q3 j4
        linarith
      · intro e; exact absurd ⟨rfl, rfl⟩ e

theorem refineGroups_spec {s : ℚ → ℚ → ℚ} (hs : SimplestOk s) {rss : List (List ℝ)} (L : List (Nat × Nat)) :
    ∀ groups : List SqRoots, List.Forall₂ SqRoots.All groups rss → (∀ ij ∈ L, ∃ w, HasWidth groups ij w) →
    ∃ groups', L.foldlM (refineGroup s) groups = some groups' ∧ List.Forall₂ SqRoots.All groups' rss ∧
      groups'.map (·.poly) = groups.map (·.poly) ∧ ∀ kl w, HasWidth groups kl w → HasWidth groups' kl w ∧ (kl ∈ L → HasWidth groups' kl (2 / 3 * w)) := by
  induction L with
  | nil => intro groups h _; exact ⟨groups, rfl, h, rfl, fun kl w hw => ⟨hw, by simp⟩⟩
  | cons ij L ih =>
    intro groups h hL
    obtain ⟨w0, hw0⟩ := hL ij (by simp)
    obtain ⟨g1, a1, a2, a3, a4⟩ := refineGroup_spec hs h hw0
    obtain ⟨g2, b1, b2, b3, b4⟩ := ih g1 a2 (fun kl hkl => by
      obtain ⟨w, hw⟩ := hL kl (by simp [hkl])
      exact ⟨w, (a4 kl w hw).1⟩)
    refine ⟨g2, by rw [List.foldlM_cons, a1]; exact b1, b2, b3.trans a3, fun kl w hw => ⟨(b4 kl w (a4 kl w hw).1).1, fun hm => ?_⟩⟩
    rcases List.mem_cons.1 hm with rfl | hm
    · exact (b4 kl _ ((a4 kl w hw).2 rfl)).1
    · exact (b4 kl w (a4 kl w hw).1).2 hm

/-- The iterator gives intervals around `γ` whose widths go to zero. -/
structure Shrinks (gen : Nat → Option (ℚ × ℚ)) (γ : ℝ) : Prop where
  around : ∀ i, ∃ a b, gen i = some (a, b) ∧ (a : ℝ) < γ ∧ γ < (b : ℝ)
  narrow : ∀ ε : ℝ, 0 < ε → ∃ N, ∀ i ≥ N, ∀ a b, gen i = some (a, b) → (b : ℝ) - a < ε

/-- The interval of `γ` always overlaps. -/
theorem overlaps_self {f : ℝ[X]} {iv : RootIv} {γ : ℝ} (h : iv.Isolates f γ) {a b : ℚ} (h1 : (a : ℝ) < γ) (h2 : γ < (b : ℝ)) :
    overlaps (a, b) iv = true := by
  cases iv with
  | rational x =>
    obtain ⟨rfl, -⟩ := h
    have e1 : a < x := by exact_mod_cast h1
    have e2 : x < b := by exact_mod_cast h2
    simp [overlaps, e1, e2]
  | real u v d =>
    have e1 : u < b := by exact_mod_cast h.1.trans h2
    have e2 : a < v := by exact_mod_cast h1.trans h.2.1
    simp [overlaps, e1, e2]

/-- A narrow interval of another root does not overlap. -/
theorem overlaps_other {f : ℝ[X]} {iv : RootIv} {ρ γ : ℝ} (h : iv.Isolates f ρ) {a b : ℚ} (h1 : (a : ℝ) < γ) (h2 : γ < (b : ℝ))
    (hw : ((b : ℝ) - a) + ((iv.hi : ℝ) - iv.lo) ≤ |ρ - γ|) : overlaps (a, b) iv = false := by
  rw [← Bool.not_eq_true]
  intro ho
  have key : |ρ - γ| < ((b : ℝ) - a) + ((iv.hi : ℝ) - iv.lo) := by
    cases iv with
    | rational x =>
      obtain ⟨rfl, -⟩ := h
      simp only [overlaps, Bool.and_eq_true, decide_eq_true_eq] at ho
      have e1 : (a : ℝ) < x := by exact_mod_cast ho.1
      have e2 : (x : ℝ) < b := by exact_mod_cast ho.2
      simp only [RootIv.hi, RootIv.lo, sub_self, add_zero]
      rw [abs_lt]; constructor <;> linarith
    | real u v d =>
      simp only [overlaps, Bool.and_eq_true, decide_eq_true_eq] at ho
      have e1 : (u : ℝ) < b := by exact_mod_cast ho.1
      have e2 : (a : ℝ) < v := by exact_mod_cast ho.2
      have e3 := h.1
      have e4 := h.2.1
      simp only [RootIv.hi, RootIv.lo]
      rw [abs_lt]; constructor <;> linarith
  linarith

/-- The state of the search. -/
structure IdInv (rss : List (List ℝ)) (i0 j0 : Nat) (W : ℚ) (i : Nat) (groups : List SqRoots) (possible : List (Nat × Nat)) : Prop where
  all : List.Forall₂ SqRoots.All groups rss
  nodup : possible.Nodup
  mem : (i0, j0) ∈ possible
  width : ∀ kl ∈ possible, HasWidth groups kl ((2 / 3) ^ i * W)

theorem hasWidth_root {groups : List SqRoots} {rss : List (List ℝ)} (h : List.Forall₂ SqRoots.All groups rss) {kl : Nat × Nat} {w : ℚ}
    (hw : HasWidth groups kl w) : ∃ R iv rs ρ, groups[kl.1]? = some R ∧ R.ivs[kl.2]? = some iv ∧ iv.hi - iv.lo ≤ w ∧
      rss[kl.1]? = some rs ∧ rs[kl.2]? = some ρ ∧ iv.Isolates (rv R.poly) ρ := by
  obtain ⟨R, iv, r1, r2, r3⟩ := hw
  obtain ⟨hi, rfl⟩ := List.getElem?_eq_some_iff.1 r1
  obtain ⟨hj, rfl⟩ := List.getElem?_eq_some_iff.1 r2
  have hi' : kl.1 < rss.length := h.length_eq ▸ hi
  have hall := (List.forall₂_iff_get.1 h).2 kl.1 hi hi'
  simp only [List.get_eq_getElem] at hall
  have hj' : kl.2 < rss[kl.1].length := hall.isolates.isolates.length_eq ▸ hj
  exact ⟨_, _, rss[kl.1], rss[kl.1][kl.2], r1, r2, r3, List.getElem?_eq_getElem hi', List.getElem?_eq_getElem hj', hall.isolates.get hj⟩

theorem IdInv.keep {rss : List (List ℝ)} {i0 j0 : Nat} {W : ℚ} {i : Nat} {groups : List SqRoots} {possible : List (Nat × Nat)}
    (h : IdInv rss i0 j0 W i groups possible) {γ : ℝ} {rs : List ℝ} (hrs : rss[i0]? = some rs) (hγ : rs[j0]? = some γ) {a b : ℚ}
    (h1 : (a : ℝ) < γ) (h2 : γ < (b : ℝ)) : keepRoot groups (a, b) (i0, j0) = true := by
  obtain ⟨R, iv, rs', ρ, r1, r2, -, r4, r5, r6⟩ := hasWidth_root h.all (h.width _ h.mem)
  simp only at r1 r2 r4 r5
  rw [hrs] at r4; cases r4
  rw [hγ] at r5; cases r5
  unfold keepRoot
  simp only [r1, Option.bind_some, r2]
  exact overlaps_self r6 h1 h2

theorem nodup_single {α : Type} {l : List α} {x : α} (h : l.Nodup) (hm : x ∈ l) (ho : ∀ y ∈ l, y = x) : l = [x] := by
  match l, h, hm, ho with
  | [y], _, _, ho => rw [ho y (by simp)]
  | y :: z :: t, h, _, ho =>
    have e1 := ho y (by simp)
    have e2 := ho z (by simp)
    rw [e1, e2] at h
    simp at h

theorem identifyLoop_spec {s : ℚ → ℚ → ℚ} (hs : SimplestOk s) {gen : Nat → Option (ℚ × ℚ)} {γ : ℝ} (hg : Shrinks gen γ) {rss : List (List ℝ)}
    {i0 j0 : Nat} {rs : List ℝ} (hrs : rss[i0]? = some rs) (hγ : rs[j0]? = some γ) {W : ℚ} {N : Nat} {δ : ℝ}
    (hδ : ∀ k l rs' ρ, rss[k]? = some rs' → rs'[l]? = some ρ → (k, l) ≠ (i0, j0) → δ ≤ |ρ - γ|)
    (hN : ∀ i ≥ N, (∀ a b, gen i = some (a, b) → (b : ℝ) - a < δ / 2) ∧ (((2 / 3) ^ i * W : ℚ) : ℝ) < δ / 2) (n : Nat) :
    ∀ i groups possible, N ≤ i + n → IdInv rss i0 j0 W i groups possible →
      ∃ groups', identifyLoop s gen i groups possible = some (groups', [(i0, j0)]) ∧ List.Forall₂ SqRoots.All groups' rss ∧
        groups'.map (·.poly) = groups.map (·.poly) := by
  have stop : ∀ i groups possible, IdInv rss i0 j0 W i groups possible → ¬ possible.length > 1 →
      ∃ groups', identifyLoop s gen i groups possible = some (groups', [(i0, j0)]) ∧ List.Forall₂ SqRoots.All groups' rss ∧
        groups'.map (·.poly) = groups.map (·.poly) := by
    intro i groups possible h hc
    have : possible = [(i0, j0)] := by
      have hm := h.mem
      match possible, hm, hc with
      | [x], hm, _ => simp at hm; rw [hm]
      | x :: y :: t, _, hc => simp at hc
    rw [identifyLoop, if_neg hc, this]
    exact ⟨groups, rfl, h.all, rfl⟩
  have step : ∀ i groups possible, IdInv rss i0 j0 W i groups possible → possible.length > 1 → ∃ a b g' , gen i = some (a, b) ∧ (a : ℝ) < γ ∧ γ < (b : ℝ) ∧
      IdInv rss i0 j0 W (i + 1) g' (possible.filter (keepRoot groups (a, b))) ∧ g'.map (·.poly) = groups.map (·.poly) ∧
      identifyLoop s gen i groups possible = identifyLoop s gen (i + 1) g' (possible.filter (keepRoot groups (a, b))) := by
    intro i groups possible h hc
    obtain ⟨a, b, g1, g2, g3⟩ := hg.around i
    obtain ⟨g', f1, f2, f3, f4⟩ := refineGroups_spec hs (possible.filter (keepRoot groups (a, b))) groups h.all (fun ij hij =>
      ⟨_, h.width ij (List.mem_filter.1 hij).1⟩)
    refine ⟨a, b, g', g1, g2, g3, ⟨f2, h.nodup.filter _, List.mem_filter.2 ⟨h.mem, h.keep hrs hγ g2 g3⟩, fun kl hkl => ?_⟩, f3, ?_⟩
    · have := (f4 kl _ (h.width kl (List.mem_filter.1 hkl).1)).2 hkl
      have e : (2 / 3 : ℚ) ^ (i + 1) * W = 2 / 3 * ((2 / 3) ^ i * W) := by ring
      rw [e]; exact this
    · rw [identifyLoop, if_pos hc, g1]
      simp only [Option.bind_eq_bind, Option.bind_some, f1]
  induction n with
  | zero =>
    intro i groups possible hi h
    by_cases hc : possible.length > 1
    · obtain ⟨a, b, g', g1, g2, g3, h', hp, e⟩ := step i groups possible h hc
      rw [e]
      have hnot : ¬ (possible.filter (keepRoot groups (a, b))).length > 1 := by
        have : possible.filter (keepRoot groups (a, b)) = [(i0, j0)] := by
          apply nodup_single h'.nodup h'.mem
          intro kl hkl
          by_contra hne
          obtain ⟨m1, m2⟩ := List.mem_filter.1 hkl
          obtain ⟨R, iv, rs', ρ, r1, r2, r3, r4, r5, r6⟩ := hasWidth_root h.all (h.width kl m1)
          unfold keepRoot at m2
          simp only [r1, Option.bind_some, r2] at m2
          have hd := hδ kl.1 kl.2 rs' ρ r4 r5 hne
          have hw := (hN i (by omega)).1 a b g1
          have hw2 := (hN i (by omega)).2
          have r3' : ((iv.hi : ℝ) - iv.lo) ≤ (((2 / 3) ^ i * W : ℚ) : ℝ) := by exact_mod_cast r3
          rw [overlaps_other r6 g2 g3 (by linarith)] at m2
          cases m2
        rw [this]; simp
      obtain ⟨g'', e1, e2, e3⟩ := stop _ _ _ h' hnot
      exact ⟨g'', e1, e2, e3.trans hp⟩
    · exact stop i groups possible h hc
  | succ n ih =>
    intro i groups possible hi h
    by_cases hc : possible.length > 1
    · obtain ⟨a, b, g', g1, g2, g3, h', hp, e⟩ := step i groups possible h hc
      rw [e]
      obtain ⟨g'', e1, e2, e3⟩ := ih (i + 1) g' _ (by omega) h'
      exact ⟨g'', e1, e2, e3.trans hp⟩
    · exact stop i groups possible h hc

theorem mem_allPairs (groups : List SqRoots) (kl : Nat × Nat) :
    kl ∈ allPairs groups ↔ ∃ R, groups[kl.1]? = some R ∧ kl.2 < R.ivs.length := by
  obtain ⟨k, l⟩ := kl
  unfold allPairs
  simp only [List.mem_flatMap, List.mem_range, List.mem_map, Prod.mk.injEq]
  constructor
  · rintro ⟨i, hi, j, hj, rfl, rfl⟩
    rw [List.getElem?_eq_getElem hi] at hj
    exact ⟨_, List.getElem?_eq_getElem hi, by simpa using hj⟩
  · rintro ⟨R, hR, hl⟩
    obtain ⟨hi, rfl⟩ := List.getElem?_eq_some_iff.1 hR
    exact ⟨k, hi, l, by rw [hR]; simpa using hl, rfl, rfl⟩

theorem nodup_allPairs (groups : List SqRoots) : (allPairs groups).Nodup := by
  unfold allPairs
  rw [List.nodup_flatMap]
  constructor
  · intro i _
    exact List.nodup_range.map (fun a b e => by simpa using e)
  · exact List.nodup_range.imp (fun {a b} hne => by
      intro x hx hy
      rw [List.mem_map] at hx hy
      obtain ⟨j, -, rfl⟩ := hx
      obtain ⟨k, -, e⟩ := hy
      simp only [Prod.mk.injEq] at e
      exact hne e.1.symm)

end Verif.RealRoots
