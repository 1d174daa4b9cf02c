import Verif.Spec.Matrix
import Mathlib.Data.List.GetD
import Mathlib.Tactic.Ring

/-!
# Storage of matrices: reading after writing, loops over entries
-/

namespace Verif.Rings

theorem idx_lt {a b n k : Nat} (ha : a < n) (hb : b < k) : b + a * k < n * k := by
  calc b + a * k < k + a * k := by omega
    _ = (a + 1) * k := by ring
    _ ≤ n * k := Nat.mul_le_mul_right _ ha

theorem idx_div {a b k : Nat} (hb : b < k) : (b + a * k) / k = a := by
  rw [Nat.add_mul_div_right _ _ (by omega), Nat.div_eq_of_lt hb, Nat.zero_add]

theorem idx_mod {a b k : Nat} (hb : b < k) : (b + a * k) % k = b := by
  rw [Nat.add_mul_mod_self_right, Nat.mod_eq_of_lt hb]

theorem idx_inj {a b a' b' k : Nat} (hb : b < k) (hb' : b' < k) (h : b + a * k = b' + a' * k) : a = a' ∧ b = b' := by
  refine ⟨?_, ?_⟩
  · rw [← idx_div (a := a) hb, h, idx_div hb']
  · rw [← idx_mod (a := a) hb, h, idx_mod hb']

theorem flipIdx_lt {f : Bool} {n i : Nat} (h : i < n) : flipIdx f n i < n := by unfold flipIdx; split <;> omega

theorem flipIdx_inj {f : Bool} {n i j : Nat} (hi : i < n) (hj : j < n) (h : flipIdx f n i = flipIdx f n j) : i = j := by
  unfold flipIdx at h; split at h <;> omega

section
variable {α β : Type}

theorem Mat.rcToIdx_lt (m : Mat α) {r c : Nat} (hr : r < m.rows) (hc : c < m.cols) : m.rcToIdx r c < m.dim1 * m.dim2 := by
  have h1 := flipIdx_lt (f := m.flipRows) hr
  have h2 := flipIdx_lt (f := m.flipCols) hc
  unfold Mat.rcToIdx
  unfold Mat.rows at *
  unfold Mat.cols at *
  cases ht : m.transpose <;> simp only [ht, if_true, Bool.false_eq_true, if_false] at *
  · exact idx_lt h1 h2
  · exact idx_lt h2 h1

theorem Mat.rcToIdx_inj (m : Mat α) {r c r' c' : Nat} (hr : r < m.rows) (hc : c < m.cols) (hr' : r' < m.rows) (hc' : c' < m.cols)
    (h : m.rcToIdx r c = m.rcToIdx r' c') : r = r' ∧ c = c' := by
  have h1 := flipIdx_lt (f := m.flipRows) hr
  have h2 := flipIdx_lt (f := m.flipCols) hc
  have h1' := flipIdx_lt (f := m.flipRows) hr'
  have h2' := flipIdx_lt (f := m.flipCols) hc'
  unfold Mat.rcToIdx at h
  have key : flipIdx m.flipRows m.rows r = flipIdx m.flipRows m.rows r' ∧ flipIdx m.flipCols m.cols c = flipIdx m.flipCols m.cols c' := by
    cases ht : m.transpose <;> rw [ht] at h <;> simp only [if_true, Bool.false_eq_true, if_false] at h
    · have e : m.cols = m.dim2 := by unfold Mat.cols; rw [ht]; rfl
      rw [e] at h2 h2' ⊢
      rw [e] at h
      exact idx_inj h2 h2' h
    · have e : m.rows = m.dim2 := by unfold Mat.rows; rw [ht]; rfl
      rw [e] at h1 h1' ⊢
      rw [e] at h
      exact (idx_inj h1 h1' h).symm
  exact ⟨flipIdx_inj hr hr' key.1, flipIdx_inj hc hc' key.2⟩

/-- `m` has `R` rows and `C` columns, satisfies its invariant, and its entries are given by `f`. -/
structure Mat.Rep (m : Mat α) (R C : Nat) (f : Nat → Nat → α) : Prop where
  rows : m.rows = R
  cols : m.cols = C
  length : m.elems.length = m.dim1 * m.dim2
  get : ∀ r c, r < R → c < C → m.get r c = some (f r c)

theorem Mat.at_eq (m : Mat α) {r c : Nat} (hr : r < m.rows) (hc : c < m.cols) : m.at r c = (m.elems[m.rcToIdx r c]?).map .ok := by
  unfold Mat.at
  rw [if_neg (by omega), if_neg (by omega)]

theorem Mat.get_eq (m : Mat α) {r c : Nat} (hr : r < m.rows) (hc : c < m.cols) : m.get r c = m.elems[m.rcToIdx r c]? := by
  unfold Mat.get
  rw [m.at_eq hr hc]
  cases m.elems[m.rcToIdx r c]? <;> rfl

theorem Mat.get_some_iff (m : Mat α) {r c : Nat} {x : α} : m.get r c = some x ↔ m.at r c = some (.ok x) := by
  unfold Mat.get
  cases h : m.at r c with
  | none => simp [unwrapMat]
  | some y => cases y <;> simp [unwrapMat]

theorem Mat.Rep.congr {m : Mat α} {R C : Nat} {f g : Nat → Nat → α} (h : m.Rep R C f)
    (e : ∀ r c, r < R → c < C → f r c = g r c) : m.Rep R C g :=
  ⟨h.rows, h.cols, h.length, fun r c hr hc => by rw [h.get r c hr hc, e r c hr hc]⟩

theorem Mat.Rep.exists {m : Mat α} (hl : m.elems.length = m.dim1 * m.dim2) : m.elems = [] ∨ ∃ f, m.Rep m.rows m.cols f := by
  by_cases he : m.elems = []
  · exact .inl he
  · refine .inr ⟨fun r c => m.elems.getD (m.rcToIdx r c) (m.elems.head he), rfl, rfl, hl, ?_⟩
    intro r c hr hc
    rw [m.get_eq hr hc]
    have := m.rcToIdx_lt hr hc
    rw [List.getD_eq_getElem _ _ (by omega), List.getElem?_eq_getElem (by omega)]

theorem Mat.Rep.set {m : Mat α} {R C : Nat} {f : Nat → Nat → α} (h : m.Rep R C f) {r c : Nat} (hr : r < R) (hc : c < C) (x : α) :
    ∃ m', m.set r c x = some m' ∧ m'.Rep R C (fun i j => if i = r ∧ j = c then x else f i j) := by
  have h1 : r < m.rows := by rw [h.rows]; exact hr
  have h2 : c < m.cols := by rw [h.cols]; exact hc
  have hlt := m.rcToIdx_lt h1 h2
  refine ⟨{ m with elems := m.elems.set (m.rcToIdx r c) x }, ?_, h.rows, h.cols, ?_, ?_⟩
  · unfold Mat.set Mat.atMutSet Mat.setIdx
    rw [if_neg (by omega), if_neg (by omega), if_pos (by rw [h.length]; exact hlt)]
    rfl
  · simpa using h.length
  · intro i j hi hj
    have h3 : i < m.rows := by rw [h.rows]; exact hi
    have h4 : j < m.cols := by rw [h.cols]; exact hj
    have hg := h.get i j hi hj
    rw [m.get_eq h3 h4] at hg
    rw [Mat.get_eq _ (by exact h3) (by exact h4)]
    have e : Mat.rcToIdx { m with elems := m.elems.set (m.rcToIdx r c) x } i j = m.rcToIdx i j := rfl
    rw [e]
    change (m.elems.set (m.rcToIdx r c) x)[m.rcToIdx i j]? = _
    by_cases hij : i = r ∧ j = c
    · rw [if_pos hij, hij.1, hij.2, List.getElem?_set_self (by rw [h.length]; exact hlt)]
    · rw [if_neg hij, List.getElem?_set_ne, hg]
      intro e
      have := m.rcToIdx_inj h1 h2 h3 h4 e
      exact hij ⟨this.1.symm, this.2.symm⟩

theorem Mat.Rep.modify {m : Mat α} {R C : Nat} {f : Nat → Nat → α} (h : m.Rep R C f) {r c : Nat} (hr : r < R) (hc : c < C)
    {g : α → Option α} {y : α} (hy : g (f r c) = some y) :
    ∃ m', Mat.modify g m r c = some m' ∧ m'.Rep R C (fun i j => if i = r ∧ j = c then y else f i j) := by
  unfold Mat.modify
  rw [h.get r c hr hc, Option.bind_some, hy, Option.bind_some]
  exact h.set hr hc y

/-- a fold that updates the matrix, described by a fold on the functions of entries -/
theorem Mat.Rep.foldlM {ι : Type} {R C : Nat} (l : List ι) {step : Mat α → ι → Option (Mat α)} (F : (Nat → Nat → α) → ι → Nat → Nat → α)
    (hstep : ∀ m f i, i ∈ l → m.Rep R C f → ∃ m', step m i = some m' ∧ m'.Rep R C (F f i)) {m : Mat α} {f : Nat → Nat → α}
    (h : m.Rep R C f) : ∃ m', l.foldlM step m = some m' ∧ m'.Rep R C (l.foldl F f) := by
  induction l generalizing m f with
  | nil => exact ⟨m, rfl, h⟩
  | cons i l ih =>
    obtain ⟨m1, e1, h1⟩ := hstep m f i (by simp) h
    obtain ⟨m2, e2, h2⟩ := ih (fun m f j hj => hstep m f j (by simp [hj])) h1
    refine ⟨m2, ?_, h2⟩
    rw [List.foldlM_cons, e1]
    exact e2

/-- a loop over the columns in which step `c` changes column `c` only -/
theorem Mat.Rep.colLoop {R C : Nat} {step : Mat α → Nat → Option (Mat α)} (T : Nat → (Nat → α) → Nat → α)
    (hstep : ∀ m f c, c < C → m.Rep R C f → ∃ m', step m c = some m' ∧
      m'.Rep R C (fun i j => if j = c then T c (fun i' => f i' c) i else f i j)) {m : Mat α} {f : Nat → Nat → α} (h : m.Rep R C f) :
    ∃ m', (List.range C).foldlM step m = some m' ∧ m'.Rep R C (fun i j => T j (fun i' => f i' j) i) := by
  suffices hk : ∀ k, k ≤ C → ∃ m', (List.range k).foldlM step m = some m' ∧
      m'.Rep R C (fun i j => if j < k then T j (fun i' => f i' j) i else f i j) by
    obtain ⟨m', e, h'⟩ := hk C le_rfl
    exact ⟨m', e, h'.congr fun r c _ hc => by rw [if_pos hc]⟩
  intro k hk
  induction k with
  | zero => exact ⟨m, rfl, h.congr fun r c _ _ => by simp⟩
  | succ k ih =>
    obtain ⟨m1, e1, h1⟩ := ih (by omega)
    obtain ⟨m2, e2, h2⟩ := hstep m1 _ k (by omega) h1
    refine ⟨m2, ?_, h2.congr ?_⟩
    · rw [List.range_succ, List.foldlM_append, e1]
      simp [e2]
    · intro r c _ _
      by_cases hc : c = k
      · subst hc; simp
      · by_cases hc' : c < k
        · rw [if_neg hc, if_pos hc', if_pos (by omega)]
        · rw [if_neg hc, if_neg hc', if_neg (by omega)]

/-- a loop over the rows in which step `r` changes row `r` only -/
theorem Mat.Rep.rowLoop {R C : Nat} {step : Mat α → Nat → Option (Mat α)} (T : Nat → (Nat → α) → Nat → α)
    (hstep : ∀ m f r, r < R → m.Rep R C f → ∃ m', step m r = some m' ∧
      m'.Rep R C (fun i j => if i = r then T r (fun j' => f r j') j else f i j)) {m : Mat α} {f : Nat → Nat → α} (h : m.Rep R C f) :
    ∃ m', (List.range R).foldlM step m = some m' ∧ m'.Rep R C (fun i j => T i (fun j' => f i j') j) := by
  suffices hk : ∀ k, k ≤ R → ∃ m', (List.range k).foldlM step m = some m' ∧
      m'.Rep R C (fun i j => if i < k then T i (fun j' => f i j') j else f i j) by
    obtain ⟨m', e, h'⟩ := hk R le_rfl
    exact ⟨m', e, h'.congr fun r c hr _ => by rw [if_pos hr]⟩
  intro k hk
  induction k with
  | zero => exact ⟨m, rfl, h.congr fun r c _ _ => by simp⟩
  | succ k ih =>
    obtain ⟨m1, e1, h1⟩ := ih (by omega)
    obtain ⟨m2, e2, h2⟩ := hstep m1 _ k (by omega) h1
    refine ⟨m2, ?_, h2.congr ?_⟩
    · rw [List.range_succ, List.foldlM_append, e1]
      simp [e2]
    · intro r c _ _
      by_cases hc : r = k
      · subst hc; simp
      · by_cases hc' : r < k
        · rw [if_neg hc, if_pos hc', if_pos (by omega)]
        · rw [if_neg hc, if_neg hc', if_neg (by omega)]

theorem Mat.Rep.loopRC {R C : Nat} {step : Mat α → Nat → Nat → Option (Mat α)} (T : Nat → Nat → α → α) {m : Mat α} {f : Nat → Nat → α}
    (hstep : ∀ m g r c, r < R → c < C → m.Rep R C g → g r c = f r c → ∃ m', step m r c = some m' ∧
      m'.Rep R C (fun i j => if i = r ∧ j = c then T r c (g r c) else g i j)) (h : m.Rep R C f) :
    ∃ m', Mat.loopRC R C step m = some m' ∧ m'.Rep R C (fun i j => T i j (f i j)) := by
  unfold Mat.loopRC
  suffices hk : ∀ k, k ≤ R → ∃ m', (List.range k).foldlM (fun m r => (List.range C).foldlM (fun m c => step m r c) m) m = some m' ∧
      m'.Rep R C (fun i j => if i < k then T i j (f i j) else f i j) by
    obtain ⟨m', e, h'⟩ := hk R le_rfl
    exact ⟨m', e, h'.congr fun r c hr _ => by rw [if_pos hr]⟩
  intro k hk
  induction k with
  | zero => exact ⟨m, rfl, h.congr fun r c _ _ => by simp⟩
  | succ k ih =>
    obtain ⟨m1, e1, h1⟩ := ih (by omega)
    have inner : ∀ l, l ≤ C → ∃ m', (List.range l).foldlM (fun m c => step m k c) m1 = some m' ∧
        m'.Rep R C (fun i j => if i < k ∨ (i = k ∧ j < l) then T i j (f i j) else f i j) := by
      intro l hl
      induction l with
      | zero => exact ⟨m1, rfl, h1.congr fun r c _ _ => by simp⟩
      | succ l ihl =>
        obtain ⟨m2, e2, h2⟩ := ihl (by omega)
        have hb : ¬ (k < k ∨ (k = k ∧ l < l)) := by omega
        obtain ⟨m3, e3, h3⟩ := hstep m2 _ k l (by omega) (by omega) h2 (by rw [if_neg hb])
        refine ⟨m3, ?_, h3.congr ?_⟩
        · rw [List.range_succ, List.foldlM_append, e2]
          simp [e3]
        · intro r c _ _
          by_cases hrc : r = k ∧ c = l
          · rw [if_pos hrc, if_neg hb, if_pos (by omega), hrc.1, hrc.2]
          · rw [if_neg hrc]
            by_cases hp : r < k ∨ (r = k ∧ c < l)
            · rw [if_pos hp, if_pos (by omega)]
            · rw [if_neg hp, if_neg (by omega)]
    obtain ⟨m2, e2, h2⟩ := inner C le_rfl
    refine ⟨m2, ?_, h2.congr ?_⟩
    · rw [List.range_succ, List.foldlM_append, e1]
      simp [e2]
    · intro r c _ hc
      by_cases hp : r < k + 1
      · rw [if_pos hp, if_pos (by omega)]
      · rw [if_neg hp, if_neg (by omega)]

theorem Mat.Rep.loopCR {R C : Nat} {step : Mat α → Nat → Nat → Option (Mat α)} (T : Nat → Nat → α → α) {m : Mat α} {f : Nat → Nat → α}
    (hstep : ∀ m g r c, r < R → c < C → m.Rep R C g → g r c = f r c → ∃ m', step m r c = some m' ∧
      m'.Rep R C (fun i j => if i = r ∧ j = c then T r c (g r c) else g i j)) (h : m.Rep R C f) :
    ∃ m', Mat.loopCR R C step m = some m' ∧ m'.Rep R C (fun i j => T i j (f i j)) := by
  unfold Mat.loopCR
  suffices hk : ∀ k, k ≤ C → ∃ m', (List.range k).foldlM (fun m c => (List.range R).foldlM (fun m r => step m r c) m) m = some m' ∧
      m'.Rep R C (fun i j => if j < k then T i j (f i j) else f i j) by
    obtain ⟨m', e, h'⟩ := hk C le_rfl
    exact ⟨m', e, h'.congr fun r c _ hc => by rw [if_pos hc]⟩
  intro k hk
  induction k with
  | zero => exact ⟨m, rfl, h.congr fun r c _ _ => by simp⟩
  | succ k ih =>
    obtain ⟨m1, e1, h1⟩ := ih (by omega)
    have inner : ∀ l, l ≤ R → ∃ m', (List.range l).foldlM (fun m r => step m r k) m1 = some m' ∧
        m'.Rep R C (fun i j => if j < k ∨ (j = k ∧ i < l) then T i j (f i j) else f i j) := by
      intro l hl
      induction l with
      | zero => exact ⟨m1, rfl, h1.congr fun r c _ _ => by simp⟩
      | succ l ihl =>
        obtain ⟨m2, e2, h2⟩ := ihl (by omega)
        have hb : ¬ (k < k ∨ (k = k ∧ l < l)) := by omega
        obtain ⟨m3, e3, h3⟩ := hstep m2 _ l k (by omega) (by omega) h2 (by rw [if_neg hb])
        refine ⟨m3, ?_, h3.congr ?_⟩
        · rw [List.range_succ, List.foldlM_append, e2]
          simp [e3]
        · intro r c _ _
          by_cases hrc : r = l ∧ c = k
          · rw [if_pos hrc, if_neg hb, if_pos (by omega), hrc.1, hrc.2]
          · rw [if_neg hrc]
            by_cases hp : c < k ∨ (c = k ∧ r < l)
            · rw [if_pos hp, if_pos (by omega)]
            · rw [if_neg hp, if_neg (by omega)]
    obtain ⟨m2, e2, h2⟩ := inner R le_rfl
    refine ⟨m2, ?_, h2.congr ?_⟩
    · rw [List.range_succ, List.foldlM_append, e1]
      simp [e2]
    · intro r c hr _
      by_cases hp : c < k + 1
      · rw [if_pos hp, if_pos (by omega)]
      · rw [if_neg hp, if_neg (by omega)]

theorem mapM_eq_map {ι β : Type} (l : List ι) {f : ι → Option β} {g : ι → β} (h : ∀ i ∈ l, f i = some (g i)) :
    l.mapM f = some (l.map g) := by
  induction l with
  | nil => rfl
  | cons i l ih => rw [List.mapM_cons, h i (by simp), ih fun j hj => h j (by simp [hj])]; rfl

theorem div_lt_of_lt_mul' {idx R C : Nat} (h : idx < R * C) : idx / C < R := Nat.div_lt_of_lt_mul (by rwa [Nat.mul_comm] at h)

theorem mod_lt_of_lt_mul {idx R C : Nat} (h : idx < R * C) : idx % C < C :=
  Nat.mod_lt _ (Nat.pos_of_ne_zero fun e => by simp [e] at h)

theorem Mat.construct_rep {R C : Nat} {mk : Nat → Nat → Option α} {f : Nat → Nat → α}
    (h : ∀ r c, r < R → c < C → mk r c = some (f r c)) :
    ∃ m, Mat.construct R C mk = some m ∧ m.Rep R C f ∧
      m = ⟨R, C, false, false, false, (List.range (R * C)).map fun idx => f (idx / C) (idx % C)⟩ := by
  have e : (List.range (R * C)).mapM (fun idx => mk (idx / C) (idx % C)) =
      some ((List.range (R * C)).map fun idx => f (idx / C) (idx % C)) := by
    apply mapM_eq_map
    intro idx hi
    rw [List.mem_range] at hi
    exact h _ _ (div_lt_of_lt_mul' hi) (mod_lt_of_lt_mul hi)
  refine ⟨_, by unfold Mat.construct; rw [e]; rfl, ⟨rfl, rfl, by simp, ?_⟩, rfl⟩
  intro r c hr hc
  rw [Mat.get_eq _ (by exact hr) (by exact hc)]
  have hlt := idx_lt hr hc
  have hi : Mat.rcToIdx ⟨R, C, false, false, false, (List.range (R * C)).map fun idx => f (idx / C) (idx % C)⟩ r c = c + r * C := by
    unfold Mat.rcToIdx flipIdx; simp
  rw [hi]
  change ((List.range (R * C)).map fun idx => f (idx / C) (idx % C))[c + r * C]? = _
  rw [List.getElem?_map, List.getElem?_range hlt, Option.map_some, idx_div hc, idx_mod hc]

theorem Mat.Rep.transposed {m : Mat α} {R C : Nat} {f : Nat → Nat → α} (h : m.Rep R C f) : m.transposed.Rep C R (fun i j => f j i) := by
  have hr : m.transposed.rows = m.cols := by unfold Mat.transposed Mat.rows Mat.cols; cases m.transpose <;> rfl
  have hc : m.transposed.cols = m.rows := by unfold Mat.transposed Mat.rows Mat.cols; cases m.transpose <;> rfl
  refine ⟨by rw [hr, h.cols], by rw [hc, h.rows], h.length, ?_⟩
  intro r c hr' hc'
  have h1 : r < m.cols := by rw [h.cols]; exact hr'
  have h2 : c < m.rows := by rw [h.rows]; exact hc'
  rw [Mat.get_eq _ (by rw [hr]; exact h1) (by rw [hc]; exact h2)]
  have hg := h.get c r hc' hr'
  rw [m.get_eq h2 h1] at hg
  rw [← hg]
  congr 1
  unfold Mat.rcToIdx
  rw [hr, hc]
  unfold Mat.transposed
  cases m.transpose <;> simp

theorem flipIdx_not {f : Bool} {n i : Nat} (h : i < n) : flipIdx (!f) n i = flipIdx f n (n - 1 - i) := by
  unfold flipIdx; cases f <;> simp <;> omega

theorem Mat.Rep.rowsFlipped {m : Mat α} {R C : Nat} {f : Nat → Nat → α} (h : m.Rep R C f) :
    m.rowsFlipped.Rep R C (fun i j => f (R - 1 - i) j) := by
  refine ⟨h.rows, h.cols, h.length, ?_⟩
  intro r c hr' hc'
  have h1 : r < m.rows := by rw [h.rows]; exact hr'
  have h2 : c < m.cols := by rw [h.cols]; exact hc'
  rw [Mat.get_eq _ (by exact h1) (by exact h2)]
  have hg := h.get (R - 1 - r) c (by omega) hc'
  rw [m.get_eq (by rw [h.rows]; omega) h2] at hg
  rw [← hg]
  change m.elems[m.rowsFlipped.rcToIdx r c]? = _
  congr 1
  have e : flipIdx m.rowsFlipped.flipRows m.rowsFlipped.rows r = flipIdx m.flipRows m.rows (R - 1 - r) := by
    change flipIdx (!m.flipRows) m.rows r = _
    rw [flipIdx_not h1, h.rows]
  unfold Mat.rcToIdx
  rw [e]
  rfl

theorem Mat.Rep.colsFlipped {m : Mat α} {R C : Nat} {f : Nat → Nat → α} (h : m.Rep R C f) :
    m.colsFlipped.Rep R C (fun i j => f i (C - 1 - j)) := by
  refine ⟨h.rows, h.cols, h.length, ?_⟩
  intro r c hr' hc'
  have h1 : r < m.rows := by rw [h.rows]; exact hr'
  have h2 : c < m.cols := by rw [h.cols]; exact hc'
  rw [Mat.get_eq _ (by exact h1) (by exact h2)]
  have hg := h.get r (C - 1 - c) hr' (by omega)
  rw [m.get_eq h1 (by rw [h.cols]; omega)] at hg
  rw [← hg]
  change m.elems[m.colsFlipped.rcToIdx r c]? = _
  congr 1
  have e : flipIdx m.colsFlipped.flipCols m.colsFlipped.cols c = flipIdx m.flipCols m.cols (C - 1 - c) := by
    change flipIdx (!m.flipCols) m.cols c = _
    rw [flipIdx_not h2, h.cols]
  unfold Mat.rcToIdx
  rw [e]
  rfl

theorem Mat.Rep.applyMap {m : Mat α} {R C : Nat} {f : Nat → Nat → α} (h : m.Rep R C f) (g : α → β) :
    (m.applyMap g).Rep R C (fun i j => g (f i j)) := by
  refine ⟨h.rows, h.cols, ?_, ?_⟩
  · unfold Mat.applyMap; simpa using h.length
  · intro r c hr' hc'
    have h1 : r < m.rows := by rw [h.rows]; exact hr'
    have h2 : c < m.cols := by rw [h.cols]; exact hc'
    rw [Mat.get_eq _ (by exact h1) (by exact h2)]
    have hg := h.get r c hr' hc'
    rw [m.get_eq h1 h2] at hg
    change (m.elems.map g)[m.rcToIdx r c]? = _
    rw [List.getElem?_map, hg]
    rfl

/-- a list of lists of equal length, flattened -/
theorem flatten_getElem? {n : Nat} (ll : List (List α)) (h : ∀ l ∈ ll, l.length = n) (r c : Nat) (hc : c < n) :
    ll.flatten[c + r * n]? = (ll[r]?).bind fun l => l[c]? := by
  induction ll generalizing r with
  | nil => simp
  | cons l ll ih =>
    have hl := h l (by simp)
    cases r with
    | zero => simp only [List.flatten_cons, Nat.zero_mul, Nat.add_zero, List.getElem?_cons_zero, Option.bind_some]
              rw [List.getElem?_append_left (by omega)]
    | succ r =>
      rw [List.flatten_cons, List.getElem?_append_right (by rw [hl]; nlinarith), List.getElem?_cons_succ,
        ← ih (fun l' hl' => h l' (by simp [hl'])) r]
      congr 1
      rw [hl, Nat.succ_mul]
      omega

theorem Mat.Rep.submatrix {m : Mat α} {R C : Nat} {f : Nat → Nat → α} (h : m.Rep R C f) (rs cs : List Nat) (hr : ∀ r ∈ rs, r < R)
    (hc : ∀ c ∈ cs, c < C) :
    ∃ m', m.submatrix rs cs = some m' ∧ m'.Rep rs.length cs.length (fun i j => f (rs.getD i 0) (cs.getD j 0)) := by
  have e : rs.mapM (fun r => cs.mapM fun c => m.get r c) = some (rs.map fun r => cs.map fun c => f r c) := by
    apply mapM_eq_map
    intro r hr'
    apply mapM_eq_map
    intro c hc'
    exact h.get r c (hr r hr') (hc c hc')
  have hlen : ∀ l ∈ rs.map (fun r => cs.map fun c => f r c), l.length = cs.length := by
    intro l hl
    rw [List.mem_map] at hl
    obtain ⟨r, -, rfl⟩ := hl
    simp
  refine ⟨_, by unfold Mat.submatrix; rw [e]; rfl, rfl, rfl, ?_, ?_⟩
  · change (rs.map fun r => cs.map fun c => f r c).flatten.length = rs.length * cs.length
    rw [List.length_flatten, List.map_congr_left hlen]
    simp [Function.comp_def]
  · intro i j hi hj
    rw [Mat.get_eq _ (by exact hi) (by exact hj)]
    have hidx : Mat.rcToIdx ⟨rs.length, cs.length, false, false, false, (rs.map fun r => cs.map fun c => f r c).flatten⟩ i j =
        j + i * cs.length := by unfold Mat.rcToIdx flipIdx; simp
    rw [hidx]
    change (rs.map fun r => cs.map fun c => f r c).flatten[j + i * cs.length]? = _
    rw [flatten_getElem? _ hlen _ _ hj, List.getElem?_map, List.getElem?_eq_getElem hi]
    simp only [Option.map_some, Option.bind_some]
    rw [List.getElem?_map, List.getElem?_eq_getElem hj, List.getD_eq_getElem _ _ hi, List.getD_eq_getElem _ _ hj]
    rfl

theorem Mat.Rep.entriesList {m : Mat α} {R C : Nat} {f : Nat → Nat → α} (h : m.Rep R C f) :
    m.entriesList = some ((List.range R).map fun r => (List.range C).map fun c => f r c).flatten := by
  unfold Mat.entriesList
  rw [h.rows, h.cols]
  have e : (List.range R).mapM (fun r => (List.range C).mapM fun c => m.get r c) =
      some ((List.range R).map fun r => (List.range C).map fun c => f r c) := by
    apply mapM_eq_map
    intro r hr'
    apply mapM_eq_map
    intro c hc'
    rw [List.mem_range] at hr' hc'
    exact h.get r c hr' hc'
  rw [e]
  rfl

theorem Mat.Rep.full (R C : Nat) (x : α) : (Mat.full R C x).Rep R C (fun _ _ => x) := by
  refine ⟨rfl, rfl, by simp [Mat.full], ?_⟩
  intro r c hr hc
  rw [Mat.get_eq _ (by exact hr) (by exact hc)]
  have := Mat.rcToIdx_lt (Mat.full R C x) (by exact hr) (by exact hc)
  change (List.replicate (R * C) x)[_]? = _
  rw [List.getElem?_replicate]
  exact if_pos this

/-- the link between the specification and the function of entries -/
theorem Mat.denotes_iff {R : Type} {v : α → R} (d : α) {m : Mat α} {r c : Nat} {A : Matrix (Fin r) (Fin c) R} :
    m.Denotes v A ↔ ∃ f, m.Rep r c f ∧ ∀ (i : Fin r) (j : Fin c), v (f i j) = A i j := by
  constructor
  · intro h
    have hex : ∀ i j : Nat, ∃ x, (∀ (hi : i < r) (hj : j < c), m.at i j = some (.ok x) ∧ v x = A ⟨i, hi⟩ ⟨j, hj⟩) := by
      intro i j
      by_cases hi : i < r
      · by_cases hj : j < c
        · obtain ⟨x, hx⟩ := h.entry ⟨i, hi⟩ ⟨j, hj⟩
          exact ⟨x, fun _ _ => hx⟩
        · exact ⟨d, fun _ hj' => absurd hj' hj⟩
      · exact ⟨d, fun hi' => absurd hi' hi⟩
    choose f hf using hex
    refine ⟨f, ⟨h.rows, h.cols, h.length, fun i j hi hj => (m.get_some_iff).2 (hf i j hi hj).1⟩, fun i j => (hf i j i.2 j.2).2⟩
  · rintro ⟨f, h, hf⟩
    exact ⟨h.rows, h.cols, h.length, fun i j => ⟨f i j, (m.get_some_iff).1 (h.get i j i.2 j.2), hf i j⟩⟩

theorem Mat.Rep.denotes {R : Type} {v : α → R} {m : Mat α} {r c : Nat} {f : Nat → Nat → α} (h : m.Rep r c f) :
    m.Denotes v (Matrix.of fun (i : Fin r) (j : Fin c) => v (f i j)) :=
  ⟨h.rows, h.cols, h.length, fun i j => ⟨f i j, (m.get_some_iff).1 (h.get i j i.2 j.2), rfl⟩⟩

theorem Mat.Rep.denotes' {R : Type} {v : α → R} {m : Mat α} {r c : Nat} {f : Nat → Nat → α} (h : m.Rep r c f)
    {A : Matrix (Fin r) (Fin c) R} (hA : ∀ (i : Fin r) (j : Fin c), v (f i j) = A i j) : m.Denotes v A :=
  ⟨h.rows, h.cols, h.length, fun i j => ⟨f i j, (m.get_some_iff).1 (h.get i j i.2 j.2), hA i j⟩⟩

theorem Mat.Denotes.get {R : Type} {v : α → R} {m : Mat α} {r c : Nat} {A : Matrix (Fin r) (Fin c) R} (h : m.Denotes v A)
    (i : Fin r) (j : Fin c) : ∃ x, m.get i j = some x ∧ v x = A i j := by
  obtain ⟨x, hx, hv⟩ := h.entry i j
  exact ⟨x, (m.get_some_iff).2 hx, hv⟩

/-- a stored matrix denotes at most one matrix -/
theorem Mat.Denotes.unique {R : Type} {v : α → R} {m : Mat α} {r c : Nat} {A B : Matrix (Fin r) (Fin c) R} (h : m.Denotes v A)
    (h' : m.Denotes v B) : A = B := by
  ext i j
  obtain ⟨x, hx, hv⟩ := h.get i j
  obtain ⟨y, hy, hw⟩ := h'.get i j
  rw [hx] at hy
  cases hy
  rw [← hv, ← hw]

end

end Verif.Rings
