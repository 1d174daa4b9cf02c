import Verif.Proofs.BzParts

/-!
# The `d - 1` test
-/

namespace Verif.Rings

open Polynomial

theorem machineRange_pos : 0 < machineRange := by norm_num [machineRange]

/-- the numerical heart of the test -/
theorem dmDecide_sound (M : ℤ) (hM : 0 < M) (l : List Nat) (bot : Nat → Nat) (c : Nat → ℤ) (d bound : Nat) (x : ℤ)
    (hb : ∀ s ∈ l, (bot s : ℚ) ≤ (c s : ℚ) * ((machineRange : ℚ) / (M : ℚ)) ∧ (c s : ℚ) * ((machineRange : ℚ) / (M : ℚ)) < bot s + 1)
    (hx : M ∣ x - (l.map c).sum) (hlen : l.length < machineRange) (hne : l ≠ [])
    (hbound : bound * d < machineRange → (∃ b, bound * d < b ∧ b < machineRange) → |(x : ℚ)| * ((machineRange : ℚ) / (M : ℚ)) ≤ bound * d) :
    dmDecide bound ((l.map bot).sum % machineRange) d l.length = false := by
  have hW := machineRange_pos
  unfold dmDecide saturatingMul wrappingAdd
  generalize machineRange = W at *
  have hMq : (0 : ℚ) < M := by exact_mod_cast hM
  have hWq : (0 : ℚ) < W := by exact_mod_cast hW
  -- the sums
  have hsum : ∀ l : List Nat, l ≠ [] → (∀ s ∈ l, (bot s : ℚ) ≤ (c s : ℚ) * ((W : ℚ) / (M : ℚ)) ∧ (c s : ℚ) * ((W : ℚ) / (M : ℚ)) < bot s + 1) →
      (((l.map bot).sum : ℕ) : ℚ) ≤ (((l.map c).sum : ℤ) : ℚ) * ((W : ℚ) / (M : ℚ)) ∧
      (((l.map c).sum : ℤ) : ℚ) * ((W : ℚ) / (M : ℚ)) < ((l.map bot).sum : ℕ) + l.length := by
    intro l
    induction l with
    | nil => intro h; exact absurd rfl h
    | cons s l ih =>
      intro _ hb
      obtain ⟨h1, h2⟩ := hb s (by simp)
      rw [List.map_cons, List.map_cons, List.sum_cons, List.sum_cons, List.length_cons]
      rw [Nat.cast_add, Int.cast_add, Nat.cast_succ, add_mul]
      by_cases e : l = []
      · subst e; simp; constructor <;> linarith
      · obtain ⟨h3, h4⟩ := ih e fun s hs => hb s (by simp [hs])
        constructor <;> linarith
  obtain ⟨h1, h2⟩ := hsum l hne hb
  obtain ⟨j, hj⟩ := hx
  generalize (l.map bot).sum = T at *
  generalize (l.map c).sum = cs at *
  have hq : (T : ℚ) = (T % W : ℕ) + (T / W : ℕ) * W := by
    have := Nat.mod_add_div T W
    rw [mul_comm]
    exact_mod_cast this.symm
  have hbW : T % W < W := Nat.mod_lt _ hW
  generalize T % W = bt at *
  generalize T / W = q at *
  have hxy : (x : ℚ) * ((W : ℚ) / M) = cs * ((W : ℚ) / M) + j * W := by
    have : x = cs + M * j := by linarith
    rw [this]; push_cast
    field_simp
  have key : ∀ b1 : ℕ, |(x : ℚ)| * ((W : ℚ) / (M : ℚ)) ≤ b1 → b1 < bt → bt + l.length + b1 < W → False := by
    intro b1 hb1 h3 h4
    have hy : |(x : ℚ) * ((W : ℚ) / M)| ≤ b1 := by
      rw [abs_mul, abs_of_pos (div_pos hWq hMq)]; exact hb1
    obtain ⟨hy1, hy2⟩ := abs_le.1 hy
    rw [hxy] at hy1 hy2
    have h3q : (b1 : ℚ) < bt := by exact_mod_cast h3
    have h4q : (bt : ℚ) + l.length + b1 < W := by exact_mod_cast h4
    rcases le_or_gt (0 : ℤ) (j + q) with hi | hi
    · have : (0 : ℚ) ≤ j + q := by exact_mod_cast hi
      have := mul_nonneg this hWq.le
      nlinarith
    · have h5 : j + q ≤ -1 := by omega
      have : (j + q : ℚ) ≤ -1 := by exact_mod_cast h5
      have := mul_le_mul_of_nonneg_right this hWq.le
      nlinarith
  have hb1W : (if bound * d < W then bound * d else W - 1) ≤ W - 1 := by split <;> omega
  have hb1 : (if bound * d < W then bound * d else W - 1) < bt → |(x : ℚ)| * ((W : ℚ) / (M : ℚ)) ≤ ((if bound * d < W then bound * d else W - 1 : ℕ) : ℚ) := by
    intro h
    by_cases e : bound * d < W
    · rw [if_pos e] at h ⊢; exact_mod_cast hbound e ⟨bt, h, hbW⟩
    · rw [if_neg e] at h; omega
  generalize (if bound * d < W then bound * d else W - 1) = b1 at *
  by_contra hcon
  rw [Bool.not_eq_false] at hcon
  have hfin : b1 < bt ∧ bt ≤ (bt + l.length) % W ∧ (bt + l.length) % W + b1 < W := by
    simp only at hcon
    have hm := Nat.mod_lt (bt + l.length) hW
    split at hcon
    · simp only [Bool.and_eq_true, decide_eq_true_eq] at hcon; omega
    · simp only [Bool.and_eq_true, decide_eq_true_eq] at hcon; omega
  obtain ⟨f1, f2, f3⟩ := hfin
  have hmod : (bt + l.length) % W = bt + l.length := by
    rcases lt_or_ge (bt + l.length) W with h | h
    · exact Nat.mod_eq_of_lt h
    · rw [Nat.mod_eq_sub_mod h, Nat.mod_eq_of_lt (by omega)] at f2
      omega
  rw [hmod] at f3
  exact key b1 (hb1 f1) f1 f3

/-- the element of a factor -/
theorem dmElem_spec (M lc : ℤ) (hM : 0 < M) (g : List Int) (hg : 0 < (polyVal (id : Int → Int) g).natDegree) :
    ∃ e c, dmElem M lc g = some e ∧ e.degree = (polyVal (id : Int → Int) g).natDegree ∧ e.bot < machineRange ∧
      M ∣ c - lc * (polyVal (id : Int → Int) g).coeff ((polyVal (id : Int → Int) g).natDegree - 1) ∧
      (e.bot : ℚ) ≤ (c : ℚ) * ((machineRange : ℚ) / (M : ℚ)) ∧ (c : ℚ) * ((machineRange : ℚ) / (M : ℚ)) < e.bot + 1 := by
  have hne : polyVal (id : Int → Int) g ≠ 0 := fun e => by rw [e] at hg; simp at hg
  have hd := intOps_models.toSemi.polyDegree_some g hne
  have hc : ∀ i, intOps.polyCoeff g i = (polyVal (id : Int → Int) g).coeff i := fun i => intOps_models.toSemi.polyCoeff g i
  have hW := machineRange_pos
  obtain ⟨c, hcdef⟩ : ∃ c, c = (lc * (polyVal (id : Int → Int) g).coeff ((polyVal (id : Int → Int) g).natDegree - 1)).fmod M := ⟨_, rfl⟩
  have hc0 : 0 ≤ c := by rw [hcdef]; exact Int.fmod_nonneg_of_pos _ hM
  have hcM : c < M := by rw [hcdef]; exact Int.fmod_lt_of_pos _ hM
  have hdvd : M ∣ c - lc * (polyVal (id : Int → Int) g).coeff ((polyVal (id : Int → Int) g).natDegree - 1) := by
    rw [hcdef, Int.fmod_eq_emod_of_nonneg _ hM.le, Int.emod_def]; exact ⟨-(_ / M), by ring⟩
  have hMq : (0 : ℚ) < M := by exact_mod_cast hM
  have hWq : (0 : ℚ) < machineRange := by exact_mod_cast hW
  have hr0 : (0 : ℚ) ≤ (c : ℚ) * ((machineRange : ℚ) / (M : ℚ)) := mul_nonneg (by exact_mod_cast hc0) (div_nonneg hWq.le hMq.le)
  have hr1 : (c : ℚ) * ((machineRange : ℚ) / (M : ℚ)) < machineRange := by
    have : (c : ℚ) < M := by exact_mod_cast hcM
    rw [← mul_div_assoc, div_lt_iff₀ hMq, mul_comm]
    exact mul_lt_mul_of_pos_left this hWq
  obtain ⟨r, hr⟩ : ∃ r, r = (c : ℚ) * ((machineRange : ℚ) / (M : ℚ)) := ⟨_, rfl⟩
  rw [← hr] at hr0 hr1
  have hf0 : 0 ≤ ⌊r⌋ := Int.floor_nonneg.2 hr0
  have hf1 : ⌊r⌋ < (machineRange : ℤ) := Int.floor_lt.2 (by exact_mod_cast hr1)
  have hnat : ((⌊r⌋.natAbs : ℕ) : ℤ) = ⌊r⌋ := Int.natAbs_of_nonneg hf0
  have hlt : ⌊r⌋.natAbs < machineRange := by omega
  refine ⟨⟨⌊r⌋.natAbs, (polyVal (id : Int → Int) g).natDegree⟩, c, ?_, rfl, hlt, hdvd, ?_, ?_⟩
  · rw [dmElem]
    have : natToUsize (⌊r⌋.natAbs % machineRange) = some ⌊r⌋.natAbs := by
      rw [Nat.mod_eq_of_lt hlt, natToUsize, if_pos hlt]
    have hb : ((polyVal (id : Int → Int) g).natDegree != 0) = true := by simpa using hg.ne'
    simp only [hd, hb, assertThat, if_true, intModOp, hM.ne', if_false, hc, ← hcdef, ratFloor, ← hr, this, Option.bind_eq_bind, Option.bind_some]
  · rw [← hr]
    have := Int.floor_le r
    rw [← hnat, Int.cast_natCast] at this
    exact this
  · rw [← hr]
    have := Int.lt_floor_add_one r
    rw [← hnat, Int.cast_natCast] at this
    exact this

theorem dmBound_spec (M lc : ℤ) (hM : 0 < M) (root : ℚ) (hroot : 0 ≤ root) (d : Nat) (hd : 0 < d) (hlt : dmBound M lc root * d < machineRange)
    (x : ℤ) (hx : |(x : ℚ)| ≤ |(lc : ℚ)| * root * d) (hbot : ∃ b, dmBound M lc root * d < b ∧ b < machineRange) :
    |(x : ℚ)| * ((machineRange : ℚ) / (M : ℚ)) ≤ dmBound M lc root * d := by
  have hMq : (0 : ℚ) < M := by exact_mod_cast hM
  have hWq : (0 : ℚ) < machineRange := by exact_mod_cast machineRange_pos
  have hk : (0 : ℚ) < (machineRange : ℚ) / (M : ℚ) := div_pos hWq hMq
  obtain ⟨r, hr⟩ : ∃ r, r = ((|lc| : ℤ) : ℚ) * root * ((machineRange : ℚ) / (M : ℚ)) := ⟨_, rfl⟩
  have hr0 : 0 ≤ r := by
    rw [hr]; push_cast
    exact mul_nonneg (mul_nonneg (abs_nonneg _) hroot) hk.le
  have hceil : ratCeil r = ⌈r⌉ := by rw [ratCeil, ratFloor, Int.floor_neg, neg_neg]
  have hle : r ≤ (⌈r⌉.natAbs : ℕ) := by
    have h1 := Int.le_ceil r
    have h2 : ((⌈r⌉.natAbs : ℕ) : ℤ) = ⌈r⌉ := Int.natAbs_of_nonneg (Int.ceil_nonneg hr0)
    rw [← h2, Int.cast_natCast] at h1
    exact h1
  have hb : dmBound M lc root = (natToUsize ⌈r⌉.natAbs).getD (machineRange - 1) := by rw [dmBound, ← hr, hceil]
  have hxr : |(x : ℚ)| * ((machineRange : ℚ) / (M : ℚ)) ≤ r * d := by
    calc _ ≤ |(lc : ℚ)| * root * d * ((machineRange : ℚ) / (M : ℚ)) := mul_le_mul_of_nonneg_right hx hk.le
      _ = r * d := by rw [hr]; push_cast; ring
  refine hxr.trans (mul_le_mul_of_nonneg_right ?_ (Nat.cast_nonneg d))
  by_cases hs : ⌈r⌉.natAbs < machineRange
  · rw [hb, natToUsize, if_pos hs]; exact hle
  · exfalso
    rw [hb, natToUsize, if_neg hs] at hbot
    obtain ⟨b, b1, b2⟩ := hbot
    simp only [Option.getD_none] at b1
    have := Nat.le_mul_of_pos_right (machineRange - 1) hd
    omega


/-- the memory of the test -/
def DmRel (elems : List DmElem) (l : List Nat) (e : DmElem) : Prop :=
  e.bot = (l.map fun s => (elems.getD s ⟨0, 0⟩).bot).sum % machineRange ∧
  e.degree = (l.map fun s => (elems.getD s ⟨0, 0⟩).degree).sum % machineRange

/-- The state of a `d - 1` test for `F` and its modular factors `g`. -/
structure DmOk (M : ℤ) (F : ℤ[X]) (root : ℚ) (n : ℕ) (g : ℕ → ℤ[X]) (dm : DmTest) : Prop where
  len : dm.stack.values.length = n
  elem : ∀ s < n, ∃ c : ℤ, (dm.stack.values.getD s ⟨0, 0⟩).degree = (g s).natDegree ∧ (dm.stack.values.getD s ⟨0, 0⟩).bot < machineRange ∧
    M ∣ c - F.leadingCoeff * (g s).coeff ((g s).natDegree - 1) ∧
    ((dm.stack.values.getD s ⟨0, 0⟩).bot : ℚ) ≤ (c : ℚ) * ((machineRange : ℚ) / (M : ℚ)) ∧
    (c : ℚ) * ((machineRange : ℚ) / (M : ℚ)) < (dm.stack.values.getD s ⟨0, 0⟩).bot + 1
  bound : dm.bound = dmBound M F.leadingCoeff root
  mem : MemOk (DmRel dm.stack.values) dm.stack.prev

theorem mapM_some_all {β γ : Type} (f : β → Option γ) (l : List β) (h : ∀ x ∈ l, ∃ y, f x = some y) : ∃ l' : List γ, l.mapM f = some l' ∧
    l'.length = l.length ∧ ∀ (s : ℕ) (x : β), l[s]? = some x → ∃ y, l'[s]? = some y ∧ f x = some y := by
  classical
  induction l with
  | nil => exact ⟨[], rfl, rfl, by simp⟩
  | cons a l ih =>
    obtain ⟨y, hy⟩ := h a (by simp)
    obtain ⟨l', h1, h2, h3⟩ := ih fun x hx => h x (by simp [hx])
    refine ⟨y :: l', by simp [hy, h1], by simp [h2], ?_⟩
    intro s x hx
    cases s with
    | zero => simp at hx; subst hx; exact ⟨y, by simp, hy⟩
    | succ s => simpa using h3 s x (by simpa using hx)

theorem DmTest.new_spec (M : ℤ) (hM : 0 < M) (f : List Int) (hf : 0 < (polyVal (id : Int → Int) f).natDegree) (factors : List (List Int))
    (hpos : ∀ g ∈ factors, 0 < (polyVal (id : Int → Int) g).natDegree) :
    ∃ (dm : DmTest) (root : ℚ), DmTest.new M f factors = some dm ∧ 1 ≤ root ∧
      (∀ z, ((polyVal (id : Int → Int) f).map (Int.castRingHom ℂ)).IsRoot z → ‖z‖ ≤ (root : ℝ)) ∧
      DmOk M (polyVal (id : Int → Int) f) root factors.length (fun s => polyVal (id : Int → Int) (factors.getD s [])) dm := by
  have hne : polyVal (id : Int → Int) f ≠ 0 := fun e => by rw [e] at hf; simp at hf
  obtain ⟨lc, l1, l2⟩ := intOps_models.toSemi.polyLeadingCoeff_some f hne
  change lc = _ at l2
  subst l2
  obtain ⟨B, b1, b2, b3⟩ := cauchyRootBound_some f hf
  obtain ⟨elems, e1, e2, e3⟩ := mapM_some_all (dmElem M (polyVal (id : Int → Int) f).leadingCoeff) factors fun g hg => by
    obtain ⟨e, c, h1, -⟩ := dmElem_spec M (polyVal (id : Int → Int) f).leadingCoeff hM g (hpos g hg)
    exact ⟨e, h1⟩
  refine ⟨⟨MemStack.new elems, dmBound M (polyVal (id : Int → Int) f).leadingCoeff B⟩, B, ?_, b2, ?_, e2, ?_, rfl, MemOk.nil⟩
  · have hb : (M != 0) = true := by simpa using hM.ne'
    rw [DmTest.new]
    simp only [hb, assertThat, if_true, l1, b1, e1, Option.bind_eq_bind, Option.bind_some]
  · intro z hz
    exact (root_bound _ hne B b3 b2 z hz).le
  · intro s hs
    have hx : factors[s]? = some factors[s] := List.getElem?_eq_getElem hs
    obtain ⟨y, y1, y2⟩ := e3 s _ hx
    obtain ⟨e, c, h1, h2, h3, h4, h5, h6⟩ := dmElem_spec M (polyVal (id : Int → Int) f).leadingCoeff hM factors[s] (hpos _ (List.getElem_mem hs))
    rw [y2] at h1
    cases h1
    have g1 : elems.getD s ⟨0, 0⟩ = y := by rw [List.getD_eq_getElem?_getD, y1]; rfl
    have g2 : factors.getD s [] = factors[s] := by rw [List.getD_eq_getElem?_getD, hx]; rfl
    refine ⟨c, ?_⟩
    simp only [MemStack.new, g1, g2]
    exact ⟨h2, h3, h4, h5, h6⟩

theorem DmOk.test {M : ℤ} (hM : 0 < M) {F : ℤ[X]} {root : ℚ} (hroot : 1 ≤ root) {n : ℕ} {g : ℕ → ℤ[X]} {dm : DmTest} (h : DmOk M F root n g dm)
    (l : List Nat) (hne : l ≠ []) (hl : ∀ s ∈ l, s < n) (hd : (l.map fun s => (g s).natDegree).sum < machineRange)
    (hpos : ∀ s < n, 0 < (g s).natDegree) (hdn : ∀ s < n, (g s).natDegree < machineRange) :
    ∃ r dm', dm.test l = some (r, dm') ∧ DmOk M F root n g dm' ∧
      (r = true → ∀ x : ℤ, M ∣ x - (l.map fun s => F.leadingCoeff * (g s).coeff ((g s).natDegree - 1)).sum →
        |(x : ℚ)| ≤ |(F.leadingCoeff : ℚ)| * root * ((l.map fun s => (g s).natDegree).sum : ℕ) → False) := by
  choose! c hc using h.elem
  obtain ⟨b, st', p1, ⟨p2, p2'⟩, p3, p4⟩ := memGetProduct (Rel := DmRel dm.stack.values) (compose := DmElem.compose) (vals := dm.stack.values)
    (by
      intro s v hv
      have hs : s < n := by rw [← h.len]; exact (List.getElem?_eq_some_iff.1 hv).1
      have e : dm.stack.values.getD s ⟨0, 0⟩ = v := by rw [List.getD_eq_getElem?_getD, hv]; rfl
      obtain ⟨h1, h2, -⟩ := hc s hs
      rw [e] at h1 h2
      have h3 := hdn s hs
      refine ⟨?_, ?_⟩
      · simp only [List.map_cons, List.map_nil, List.sum_cons, List.sum_nil, add_zero, e]; exact (Nat.mod_eq_of_lt h2).symm
      · simp only [List.map_cons, List.map_nil, List.sum_cons, List.sum_nil, add_zero, e]; exact (Nat.mod_eq_of_lt (by omega)).symm)
    (by
      rintro l b s v - ⟨h1, h2⟩ hv
      have e : dm.stack.values.getD s ⟨0, 0⟩ = v := by rw [List.getD_eq_getElem?_getD, hv]; rfl
      refine ⟨?_, ?_⟩
      · simp only [DmElem.compose, wrappingAdd, h1, List.map_append, List.sum_append, List.map_cons, List.map_nil, List.sum_cons, List.sum_nil, add_zero, e, Nat.mod_add_mod]
      · simp only [DmElem.compose, wrappingAdd, h2, List.map_append, List.sum_append, List.map_cons, List.map_nil, List.sum_cons, List.sum_nil, add_zero, e, Nat.mod_add_mod])
    dm.stack rfl h.mem l hne (fun s hs => by rw [h.len]; exact hl s hs)
  refine ⟨dmDecide dm.bound b.bot b.degree l.length, { dm with stack := st' }, by rw [DmTest.test, p1]; rfl, ⟨?_, ?_, h.bound, ?_⟩, ?_⟩
  · change st'.values.length = n; rw [p3, h.len]
  · change ∀ s < n, ∃ c : ℤ, _
    intro s hs
    refine ⟨c s, ?_⟩
    simp only [p3]
    exact hc s hs
  · change MemOk (DmRel st'.values) st'.prev
    rw [p3]; exact p4
  · intro hr x hx hxb
    have hdeg : ∀ l : List Nat, (∀ s ∈ l, s < n) → (l.map fun s => (dm.stack.values.getD s ⟨0, 0⟩).degree) = l.map fun s => (g s).natDegree := by
      intro l hl
      exact List.map_congr_left fun s hs => (hc s (hl s hs)).1
    rw [hdeg l hl, Nat.mod_eq_of_lt hd] at p2'
    have hlen : ∀ l : List Nat, (∀ s ∈ l, s < n) → l.length ≤ (l.map fun s => (g s).natDegree).sum := by
      intro l
      induction l with
      | nil => simp
      | cons a l ih =>
        intro hl
        have := ih fun s hs => hl s (by simp [hs])
        have := hpos a (hl a (by simp))
        simp only [List.length_cons, List.map_cons, List.sum_cons]; omega
    have hdpos : 0 < (l.map fun s => (g s).natDegree).sum := lt_of_lt_of_le (List.length_pos_iff.2 hne) (hlen l hl)
    simp only [p2, p2', h.bound] at hr
    have hsum : M ∣ (l.map c).sum - (l.map fun s => F.leadingCoeff * (g s).coeff ((g s).natDegree - 1)).sum := by
      clear hne hr hx hxb p1 p2 p2' hd hdpos
      induction l with
      | nil => simp
      | cons a l ih =>
        have h1 := ih fun s hs => hl s (by simp [hs])
        have h2 := (hc a (hl a (by simp))).2.2.1
        simp only [List.map_cons, List.sum_cons]
        have := dvd_add h2 h1
        rwa [sub_add_sub_comm] at this
    have := dmDecide_sound M hM l (fun s => (dm.stack.values.getD s ⟨0, 0⟩).bot) c (l.map fun s => (g s).natDegree).sum (dmBound M F.leadingCoeff root) x
      (fun s hs => (hc s (hl s hs)).2.2.2)
      (by have := dvd_sub hx hsum; rwa [sub_sub_sub_cancel_right] at this)
      (lt_of_le_of_lt (hlen l hl) hd) hne
      (fun h1 h2 => dmBound_spec M F.leadingCoeff hM root (by linarith) _ hdpos h1 x hxb h2)
    rw [this] at hr
    cases hr

/-- a set of modular factors that the test rejects does not belong to a factor -/
theorem next_coeff_cong {p : ℤ} {t : ℕ} {F : ℤ[X]} {A : Finset ℕ} {g : ℕ → ℤ[X]} (h : ModFact p t F A g) {G H : ℤ[X]} (e : F = G * H)
    {S : Finset ℕ} (hS : S ⊆ A) (hi : Is p t g G S) (hne : S.Nonempty) :
    G.natDegree = ∑ i ∈ S, (g i).natDegree ∧ 0 < G.natDegree ∧
    p ^ t ∣ H.leadingCoeff * G.coeff (G.natDegree - 1) - ∑ i ∈ S, F.leadingCoeff * (g i).coeff ((g i).natDegree - 1) := by
  have hG := (lc_of_mul e h.lc).1
  have hd := h.natDegree_of_is hS hG hi
  have hpos : 0 < G.natDegree := by
    rw [hd]
    obtain ⟨i, hi⟩ := hne
    exact Finset.sum_pos (fun i hi => h.pos (hS hi)) ⟨i, hi⟩
  refine ⟨hd, hpos, ?_⟩
  have hP : (∏ i ∈ S, g i).natDegree = G.natDegree := by rw [h.natDegree_prod hS, hd]
  have h1 : (∏ i ∈ S, g i).coeff (G.natDegree - 1) = ∑ i ∈ S, (g i).coeff ((g i).natDegree - 1) := by
    have := Monic.nextCoeff_prod S g fun i hi => h.monic i (hS hi)
    rw [nextCoeff_of_natDegree_pos (by rw [hP]; exact hpos), hP] at this
    rw [this]
    exact Finset.sum_congr rfl fun i hi => nextCoeff_of_natDegree_pos (h.pos (hS hi))
  have h2 := (hi (G.natDegree - 1)).mul_left H.leadingCoeff
  rw [coeff_C_mul, h1, mul_sub, ← mul_assoc, mul_comm H.leadingCoeff G.leadingCoeff, ← leadingCoeff_mul, ← e, Finset.mul_sum] at h2
  exact h2

end Verif.Rings
