import Verif.Proofs.PolyDivision
import Mathlib.LinearAlgebra.Matrix.Determinant.Basic
import Mathlib.LinearAlgebra.Span.Basic

/-!
# Determinants of lists of polynomials and the fundamental theorem of subresultants

`pdet N l` is the determinant of the coefficients of `x^0, …, x^(N-1)` in the first `N` polynomials of `l`. Everything is
proved up to sign, by comparing squares.
-/

namespace Verif.Rings

open Polynomial

section PDet
variable {R : Type} [CommRing R]

/-- Determinant of the coefficient matrix of a list of polynomials. -/
noncomputable def pdet (N : Nat) (l : List R[X]) : R :=
  (Matrix.of fun i k : Fin N => (l.getD i 0).coeff k).det

theorem pdet_swap (N : Nat) (l₁ l₂ : List R[X]) (u w : R[X]) :
    pdet N (l₁ ++ u :: w :: l₂) ^ 2 = pdet N (l₁ ++ w :: u :: l₂) ^ 2 ∨ N < l₁.length + 2 := by
  by_cases hN : N < l₁.length + 2
  · exact Or.inr hN
  left
  let i0 : Fin N := ⟨l₁.length, by omega⟩
  let i1 : Fin N := ⟨l₁.length + 1, by omega⟩
  have e : (Matrix.of fun i k : Fin N => ((l₁ ++ w :: u :: l₂).getD i 0).coeff k)
      = (Matrix.of fun i k : Fin N => ((l₁ ++ u :: w :: l₂).getD i 0).coeff k).submatrix (Equiv.swap i0 i1) id := by
    ext i k
    simp only [Matrix.of_apply, Matrix.submatrix_apply, id]
    congr 1
    by_cases h0 : i = i0
    · subst h0
      rw [Equiv.swap_apply_left]
      simp [i0, i1, List.getD_append_right]
    by_cases h1 : i = i1
    · subst h1
      rw [Equiv.swap_apply_right]
      simp [i0, i1, List.getD_append_right]
    rw [Equiv.swap_apply_of_ne_of_ne h0 h1]
    have h0' : (i : Nat) ≠ l₁.length := fun e => h0 (Fin.ext e)
    have h1' : (i : Nat) ≠ l₁.length + 1 := fun e => h1 (Fin.ext e)
    rcases Nat.lt_or_ge (i : Nat) l₁.length with hlt | hge
    · rw [List.getD_append _ _ _ _ hlt, List.getD_append _ _ _ _ hlt]
    · rw [List.getD_append_right _ _ _ _ hge, List.getD_append_right _ _ _ _ hge]
      obtain ⟨c, hc⟩ : ∃ c, (i : Nat) - l₁.length = c + 2 := ⟨(i : Nat) - l₁.length - 2, by omega⟩
      rw [hc]; simp
  have hs := Matrix.det_permute (Equiv.swap i0 i1)
    (Matrix.of fun i k : Fin N => ((l₁ ++ u :: w :: l₂).getD i 0).coeff k)
  rw [pdet, pdet, e, hs, mul_pow]
  rcases Int.units_eq_one_or (Equiv.Perm.sign (Equiv.swap i0 i1)) with h | h <;> rw [h] <;> simp

theorem pdet_perm_aux (l l' : List R[X]) (hp : l.Perm l') : ∀ l₁ : List R[X], ∀ N, N = l₁.length + l.length →
    pdet N (l₁ ++ l) ^ 2 = pdet N (l₁ ++ l') ^ 2 := by
  induction hp with
  | nil => intro _ _ _; rfl
  | cons x _ ih =>
    intro l₁ N hN
    have := ih (l₁ ++ [x]) N (by simp at hN ⊢; omega)
    simpa using this
  | swap x y l =>
    intro l₁ N hN
    exact (pdet_swap N l₁ l y x).resolve_right (by simp at hN; omega)
  | trans h1 _ ih1 ih2 =>
    intro l₁ N hN
    rw [ih1 l₁ N hN, ih2 l₁ N (by rw [hN, h1.length_eq])]

theorem pdet_perm {l l' : List R[X]} (hp : l.Perm l') {N : Nat} (hN : N = l.length) : pdet N l ^ 2 = pdet N l' ^ 2 :=
  pdet_perm_aux l l' hp [] N (by simpa using hN)

/-- Expansion along the first row: the determinant is linear in the head of the list. -/
noncomputable def pdetLin (N : Nat) (l : List R[X]) : R[X] →ₗ[R] R where
  toFun u := pdet (N + 1) (u :: l)
  map_add' u w := by
    simp only [pdet]
    rw [Matrix.det_succ_row_zero, Matrix.det_succ_row_zero, Matrix.det_succ_row_zero, ← Finset.sum_add_distrib]
    refine Finset.sum_congr rfl fun k _ => ?_
    simp only [Matrix.of_apply, Fin.val_zero, List.getD_cons_zero, coeff_add]
    have e : ∀ x : R[X], ((Matrix.of fun i k : Fin (N + 1) => ((x :: l).getD i 0).coeff k).submatrix Fin.succ k.succAbove)
        = Matrix.of fun i k' : Fin N => (l.getD i 0).coeff (k.succAbove k') := by
      intro x; ext i k'; simp
    rw [e, e, e]; ring
  map_smul' c u := by
    simp only [pdet]
    rw [Matrix.det_succ_row_zero, Matrix.det_succ_row_zero, RingHom.id_apply, smul_eq_mul, Finset.mul_sum]
    refine Finset.sum_congr rfl fun k _ => ?_
    simp only [Matrix.of_apply, Fin.val_zero, List.getD_cons_zero, coeff_smul, smul_eq_mul]
    have e : ∀ x : R[X], ((Matrix.of fun i k : Fin (N + 1) => ((x :: l).getD i 0).coeff k).submatrix Fin.succ k.succAbove)
        = Matrix.of fun i k' : Fin N => (l.getD i 0).coeff (k.succAbove k') := by
      intro x; ext i k'; simp
    rw [e, e]; ring

theorem pdet_head_mem (l : List R[X]) (u : R[X]) (hu : u ∈ l) (N : Nat) (hN : N = l.length) : pdet (N + 1) (u :: l) = 0 := by
  obtain ⟨i, hi, rfl⟩ := List.getElem_of_mem hu
  apply Matrix.det_zero_of_row_eq (i := 0) (j := (⟨i + 1, by omega⟩ : Fin (N + 1))) (by simp [Fin.ext_iff])
  ext k
  simp [List.getElem?_eq_getElem hi]

theorem pdet_head_span (l : List R[X]) (s : R[X]) (hs : s ∈ Submodule.span R {f | f ∈ l}) (N : Nat) (hN : N = l.length) :
    pdet (N + 1) (s :: l) = 0 := by
  change pdetLin N l s = 0
  induction hs using Submodule.span_induction with
  | mem x hx => exact pdet_head_mem l x hx N hN
  | zero => exact map_zero _
  | add x y _ _ hx hy => rw [map_add, hx, hy, add_zero]
  | smul c x _ hx => rw [map_smul, hx, smul_zero]

theorem pdet_head (l : List R[X]) (u s : R[X]) (c : R) (hs : s ∈ Submodule.span R {f | f ∈ l}) (N : Nat)
    (hN : N = l.length) : pdet (N + 1) ((C c * u + s) :: l) = c * pdet (N + 1) (u :: l) := by
  change pdetLin N l _ = c * pdetLin N l u
  rw [map_add, C_mul', map_smul, smul_eq_mul]
  have : pdetLin N l s = 0 := pdet_head_span l s hs N hN
  rw [this, add_zero]

/-- A row operation on a block of rows. -/
theorem pdet_block {ι : Type} (l₁ : List ι) (f g : ι → R[X]) (c : R) (l₂ : List R[X])
    (hfg : ∀ i ∈ l₁, g i - C c * f i ∈ Submodule.span R {f | f ∈ l₂}) (N : Nat) (hN : N = l₁.length + l₂.length) :
    pdet N (l₁.map g ++ l₂) ^ 2 = (c ^ l₁.length * pdet N (l₁.map f ++ l₂)) ^ 2 := by
  induction l₁ generalizing l₂ N with
  | nil => simp
  | cons x t ih =>
    obtain ⟨N, rfl⟩ : ∃ M, N = M + 1 := ⟨N - 1, by simp at hN; omega⟩
    have hmono : ∀ (L : List R[X]), (∀ y ∈ l₂, y ∈ L) → Submodule.span R {f | f ∈ l₂} ≤ Submodule.span R {f | f ∈ L} :=
      fun L hL => Submodule.span_mono hL
    have e1 : pdet (N + 1) (g x :: (t.map g ++ l₂)) = c * pdet (N + 1) (f x :: (t.map g ++ l₂)) := by
      have := pdet_head (t.map g ++ l₂) (f x) (g x - C c * f x) c
        (hmono _ (fun y hy => List.mem_append_right _ hy) (hfg x List.mem_cons_self)) N (by simp at hN ⊢; omega)
      rw [← this]; congr 2; ring
    have e2 : pdet (N + 1) (f x :: (t.map g ++ l₂)) ^ 2 = pdet (N + 1) (t.map g ++ (f x :: l₂)) ^ 2 :=
      pdet_perm (List.perm_middle.symm) (by simp at hN ⊢; omega)
    have e3 := ih (f x :: l₂) (fun i hi => hmono _ (fun y hy => List.mem_cons_of_mem _ hy) (hfg i (List.mem_cons_of_mem _ hi)))
      (N + 1) (by simp at hN ⊢; omega)
    have e4 : pdet (N + 1) (t.map f ++ (f x :: l₂)) ^ 2 = pdet (N + 1) (f x :: (t.map f ++ l₂)) ^ 2 :=
      pdet_perm List.perm_middle (by simp at hN ⊢; omega)
    rw [List.map_cons, List.cons_append, e1, mul_pow, e2, e3, mul_pow, e4, List.map_cons, List.cons_append, List.length_cons]
    ring

/-- The row of highest degree can be split off. -/
theorem pdet_top (l : List R[X]) (u : R[X]) (N : Nat) (hl : ∀ f ∈ l, f.coeff N = 0) :
    pdet (N + 1) (u :: l) ^ 2 = (u.coeff N * pdet N l) ^ 2 := by
  rw [pdet, Matrix.det_succ_column _ (Fin.last N), Finset.sum_eq_single 0]
  · have e : ((Matrix.of fun i k : Fin (N + 1) => ((u :: l).getD i 0).coeff k).submatrix (Fin.succAbove 0)
        (Fin.last N).succAbove) = Matrix.of fun i k : Fin N => (l.getD i 0).coeff k := by
      ext i k; simp
    rw [e, pdet]
    simp only [Matrix.of_apply, Fin.val_zero, List.getD_cons_zero, Fin.val_last, zero_add]
    rw [mul_pow, mul_pow, ← pow_mul, mul_comm N 2, pow_mul]; simp [mul_pow]
  · intro i _ hi
    have : ((u :: l).getD i 0).coeff (Fin.last N : Nat) = 0 := by
      obtain ⟨c, hc⟩ : ∃ c, (i : Nat) = c + 1 := ⟨(i : Nat) - 1, by
        have : (i : Nat) ≠ 0 := fun e => hi (Fin.ext e)
        omega⟩
      rw [hc, List.getD_cons_succ]
      by_cases hcl : c < l.length
      · rw [List.getD_eq_getElem _ _ hcl]; exact hl _ (List.getElem_mem hcl)
      · rw [List.getD_eq_default _ _ (by omega)]; simp
    simp only [Matrix.of_apply]
    rw [this]; simp
  · intro hh; simp at hh

/-- The shifted copies `f, x f, …, x^(p-1) f`. -/
noncomputable def xs (f : R[X]) (p : Nat) : List R[X] := (List.range p).map fun i => X ^ i * f

@[simp] theorem xs_length (f : R[X]) (p : Nat) : (xs f p).length = p := by simp [xs]

theorem xs_succ (f : R[X]) (p : Nat) : xs f (p + 1) = xs f p ++ [X ^ p * f] := by
  simp [xs, List.range_succ]

theorem mul_mem_span_xs (P B : R[X]) (q : Nat) (hP : ∀ k, q ≤ k → P.coeff k = 0) :
    P * B ∈ Submodule.span R {f | f ∈ xs B q} := by
  have e : P = ∑ k ∈ Finset.range q, C (P.coeff k) * X ^ k := by
    ext i
    simp only [finset_sum_coeff, coeff_C_mul, coeff_X_pow, mul_ite, mul_one, mul_zero]
    rw [Finset.sum_ite_eq]
    by_cases hi : i < q
    · rw [if_pos (by simpa using hi)]
    · rw [if_neg (by simpa using hi), hP i (by omega)]
  rw [e, Finset.sum_mul]
  refine Submodule.sum_mem _ fun k hk => ?_
  rw [mul_assoc, C_mul']
  refine Submodule.smul_mem _ _ (Submodule.subset_span ?_)
  exact List.mem_map.2 ⟨k, List.mem_range.2 (by simpa using hk), rfl⟩

/-- Replacing `A` by `T = c A - Q B` in a block. -/
theorem pdet_rowop (A B T Q : R[X]) (c : R) (h : C c * A = Q * B + T) (p q : Nat) (W : List R[X])
    (hQ : ∀ i k, i < p → q ≤ k + i → Q.coeff k = 0) (N : Nat) (hN : N = p + (q + W.length)) :
    pdet N (xs T p ++ (xs B q ++ W)) ^ 2 = (c ^ p * pdet N (xs A p ++ (xs B q ++ W))) ^ 2 := by
  have := pdet_block (List.range p) (fun i => X ^ i * A) (fun i => X ^ i * T) c (xs B q ++ W) ?_ N (by simp [hN])
  · simpa [xs] using this
  · intro i hi
    have e : X ^ i * T - C c * (X ^ i * A) = (-(X ^ i * Q)) * B := by linear_combination X ^ i * (-h)
    rw [e]
    refine Submodule.span_mono (fun y hy => List.mem_append_left _ hy) (mul_mem_span_xs _ _ q ?_)
    intro k hk
    rw [coeff_neg, coeff_X_pow_mul']
    split
    · rw [hQ i (k - i) (by simpa using hi) (by omega), neg_zero]
    · simp

/-- Splitting off the shifted copies of `B` of highest degree. -/
theorem pdet_split (B : R[X]) (n : Nat) (hB : B.natDegree = n) (L : List R[X]) (hL : L.length = n) (t s : Nat)
    (hdeg : ∀ f ∈ L, ∀ k, n + t ≤ k → f.coeff k = 0) :
    pdet (n + (t + s)) (L ++ xs B (t + s)) ^ 2 = (B.leadingCoeff ^ s * pdet (n + t) (L ++ xs B t)) ^ 2 := by
  induction s with
  | zero => simp
  | succ s ih =>
    have hp : (L ++ xs B (t + s + 1)).Perm ((X ^ (t + s) * B) :: (L ++ xs B (t + s))) := by
      rw [xs_succ, ← List.append_assoc]
      exact List.perm_append_singleton _ _
    have e1 : pdet (n + (t + s + 1)) (L ++ xs B (t + s + 1)) ^ 2
        = pdet (n + (t + s) + 1) ((X ^ (t + s) * B) :: (L ++ xs B (t + s))) ^ 2 := by
      rw [← Nat.add_assoc]; exact pdet_perm hp (by simp [hL]; omega)
    rw [show t + (s + 1) = t + s + 1 from rfl, e1, pdet_top]
    · rw [mul_pow, ih, coeff_X_pow_mul', if_pos (by omega)]
      have : n + (t + s) - (t + s) = n := by omega
      rw [this, ← hB, coeff_natDegree]; ring
    · intro f hf
      rcases List.mem_append.1 hf with hf | hf
      · exact hdeg f hf _ (by omega)
      · obtain ⟨i, hi, rfl⟩ := List.mem_map.1 hf
        rw [coeff_X_pow_mul']
        split
        · exact coeff_eq_zero_of_natDegree_lt (by simp at hi; omega)
        · rfl

/-- The monomials `x^0, …, x^j` without `x^k`. -/
noncomputable def wlist (j k : Nat) : List (R[X]) := ((List.range (j + 1)).erase k).map fun i => X ^ i

theorem wlist_length (j k : Nat) (hk : k ≤ j) : (wlist (R := R) j k).length = j := by
  rw [wlist, List.length_map, List.length_erase_of_mem (by simp; omega)]; simp

theorem wlist_coeff (j k : Nat) (f : R[X]) (hf : f ∈ wlist j k) (i : Nat) (hi : j < i) : f.coeff i = 0 := by
  obtain ⟨l, hl, rfl⟩ := List.mem_map.1 hf
  have := List.mem_range.1 (List.mem_of_mem_erase hl)
  rw [coeff_X_pow, if_neg (by omega)]

theorem pdet_monomials (n : Nat) : pdet (R := R) n ((List.range n).map fun i => X ^ i) = 1 := by
  have : (Matrix.of fun i k : Fin n => (((List.range n).map fun i => (X : R[X]) ^ i).getD i 0).coeff k) = 1 := by
    ext i k
    simp only [Matrix.of_apply]
    rw [List.getD_eq_getElem _ _ (by simp), List.getElem_map, List.getElem_range, coeff_X_pow, Matrix.one_apply]
    by_cases h : i = k
    · subst h; simp
    · rw [if_neg h, if_neg (fun e => h (Fin.ext e.symm))]
  rw [pdet, this, Matrix.det_one]

/-- The `k`-th coefficient as a determinant. -/
theorem pdet_coeff (T : R[X]) (j k : Nat) (hk : k ≤ j) (hT : ∀ i, j < i → T.coeff i = 0) :
    pdet (j + 1) (T :: wlist j k) ^ 2 = T.coeff k ^ 2 := by
  have hmem : k ∈ List.range (j + 1) := by simp; omega
  have e : T = C (T.coeff k) * X ^ k + ∑ i ∈ (Finset.range (j + 1)).erase k, C (T.coeff i) * X ^ i := by
    rw [Finset.add_sum_erase _ (fun i => C (T.coeff i) * X ^ i) (by simp; omega)]
    ext i
    simp only [finset_sum_coeff, coeff_C_mul, coeff_X_pow, mul_ite, mul_one, mul_zero]
    rw [Finset.sum_ite_eq]
    by_cases hi : i < j + 1
    · rw [if_pos (by simpa using hi)]
    · rw [if_neg (by simpa using hi), hT i (by omega)]
  have e1 : pdet (j + 1) (T :: wlist j k) = T.coeff k * pdet (j + 1) (X ^ k :: wlist j k) := by
    conv_lhs => rw [e]
    apply pdet_head _ _ _ _ _ _ (wlist_length j k hk).symm
    refine Submodule.sum_mem _ fun i hi => ?_
    rw [C_mul']
    refine Submodule.smul_mem _ _ (Submodule.subset_span ?_)
    rw [Finset.mem_erase, Finset.mem_range] at hi
    exact List.mem_map.2 ⟨i, (List.mem_erase_of_ne hi.1).2 (by simpa using hi.2), rfl⟩
  have hp : (X ^ k :: wlist (R := R) j k).Perm ((List.range (j + 1)).map fun i => X ^ i) := by
    have := (List.perm_cons_erase hmem).symm.map (fun i => (X : R[X]) ^ i)
    simpa [wlist] using this
  rw [e1, mul_pow, pdet_perm hp (by simp [wlist_length j k hk]), pdet_monomials, one_pow, mul_one]

/-- The square of the determinant that gives coefficient `k` of the `j`-th subresultant of polynomials of degrees `m`
and `n`. -/
noncomputable def subresSq (j k m n : Nat) (A B : R[X]) : R :=
  pdet (n - j + (m - j + j)) (xs A (n - j) ++ (xs B (m - j) ++ wlist j k)) ^ 2

/-- One step of a remainder sequence, for the subresultants below the degree of the remainder. -/
theorem subresSq_step [IsDomain R] (A B c Q : R[X]) (β : R) (m n l j k : Nat) (hB : B.natDegree = n)
    (hc : c.natDegree ≤ l) (hmn : n ≤ m) (hln : l < n) (hjl : j ≤ l) (hk : k ≤ j)
    (h : C (B.leadingCoeff ^ (m - n + 1)) * A = Q * B + C β * c) (hQ : Q.natDegree ≤ m - n) :
    (B.leadingCoeff ^ (m - n + 1)) ^ (2 * (n - j)) * subresSq j k m n A B
      = (β ^ (n - j) * B.leadingCoeff ^ (m - l)) ^ 2 * subresSq j k n l B c := by
  have hw := wlist_length (R := R) j k hk
  have e1 := pdet_rowop A B (C β * c) Q _ h (n - j) (m - j) (wlist j k) (by
    intro i k' hi hk'
    exact coeff_eq_zero_of_natDegree_lt (by omega)) (n - j + (m - j + j)) (by rw [hw])
  have e2 := pdet_rowop c B (C β * c) 0 β (by simp) (n - j) (m - j) (wlist j k) (by intro _ _ _ _; simp)
    (n - j + (m - j + j)) (by rw [hw])
  have hp : (xs c (n - j) ++ (xs B (m - j) ++ wlist j k)).Perm ((xs c (n - j) ++ wlist j k) ++ xs B (m - j)) := by
    rw [List.append_assoc]
    exact List.Perm.append_left _ List.perm_append_comm
  have e3 := pdet_perm hp (N := n - j + (m - j + j)) (by simp [hw])
  have e4 := pdet_split B n hB (xs c (n - j) ++ wlist j k) (by simp [hw]; omega) (l - j) (m - l) (by
    intro f hf i hi
    rcases List.mem_append.1 hf with hf | hf
    · obtain ⟨i', hi', rfl⟩ := List.mem_map.1 hf
      rw [coeff_X_pow_mul']
      split
      · exact coeff_eq_zero_of_natDegree_lt (by simp at hi'; omega)
      · rfl
    · exact wlist_coeff j k f hf i (by omega))
  have hp' : ((xs c (n - j) ++ wlist j k) ++ xs B (l - j)).Perm (xs B (l - j) ++ (xs c (n - j) ++ wlist j k)) :=
    List.perm_append_comm
  have e5 := pdet_perm hp' (N := n + (l - j)) (by simp [hw]; omega)
  have i1 : n - j + (m - j + j) = n + (l - j + (m - l)) := by omega
  have i2 : l - j + (m - l) = m - j := by omega
  have i3 : n + (l - j) = l - j + (n - j + j) := by omega
  rw [i1] at e1 e2 e3
  rw [i2] at e4 e1 e2 e3
  rw [subresSq, subresSq, i1, i2]
  rw [pow_mul]
  have : (((B.leadingCoeff ^ (m - n + 1)) ^ 2) ^ (n - j)) = ((B.leadingCoeff ^ (m - n + 1)) ^ (n - j)) ^ 2 := by ring
  rw [this, ← mul_pow, ← e1, e2, mul_pow, e3, e4, mul_pow, mul_pow, e5, i3, mul_assoc]

/-- The `(n-1)`-st subresultant is the pseudo-remainder. -/
theorem subresSq_prem [IsDomain R] (A B T Q : R[X]) (m n k : Nat) (hB : B.natDegree = n) (hB0 : B ≠ 0) (hmn : n ≤ m)
    (hk : k < n) (hT : T.degree < B.degree)
    (h : C (B.leadingCoeff ^ (m - n + 1)) * A = Q * B + T) (hQ : Q.natDegree ≤ m - n) :
    subresSq (n - 1) k m n A B = T.coeff k ^ 2 := by
  have hw := wlist_length (R := R) (n - 1) k (by omega)
  have hTc : ∀ i, n ≤ i → T.coeff i = 0 := fun i hi =>
    coeff_eq_zero_of_degree_lt (lt_of_lt_of_le hT (by rw [degree_eq_natDegree hB0, hB]; exact_mod_cast hi))
  have e1 := pdet_rowop A B T Q _ h 1 (m - n + 1) (wlist (n - 1) k) (by
    intro i k' hi hk'
    exact coeff_eq_zero_of_natDegree_lt (by omega)) (n + (m - n + 1)) (by rw [hw]; omega)
  have hp : (xs T 1 ++ (xs B (m - n + 1) ++ wlist (n - 1) k)).Perm ((xs T 1 ++ wlist (n - 1) k) ++ xs B (m - n + 1)) := by
    rw [List.append_assoc]
    exact List.Perm.append_left _ List.perm_append_comm
  have e3 := pdet_perm hp (N := n + (m - n + 1)) (by simp [hw]; omega)
  have e4 := pdet_split B n hB (xs T 1 ++ wlist (n - 1) k) (by simp [hw]; omega) 0 (m - n + 1) (by
    intro f hf i hi
    rcases List.mem_append.1 hf with hf | hf
    · simp only [xs, List.range_one, List.map_cons, pow_zero, one_mul, List.map_nil, List.mem_singleton] at hf
      subst hf
      exact hTc i (by omega)
    · exact wlist_coeff (n - 1) k f hf i (by omega))
  have e5 := pdet_coeff T (n - 1) k (by omega) (fun i hi => hTc i (by omega))
  have hxs : xs T 1 ++ wlist (n - 1) k ++ xs B 0 = T :: wlist (n - 1) k := by simp [xs]
  rw [hxs] at e4
  simp only [Nat.zero_add, Nat.add_zero] at e4
  rw [show n - 1 + 1 = n by omega] at e5
  have hbl : B.leadingCoeff ≠ 0 := leadingCoeff_ne_zero.2 hB0
  rw [subresSq, show n - (n - 1) = 1 by omega, show m - (n - 1) = m - n + 1 by omega,
    show 1 + (m - n + 1 + (n - 1)) = n + (m - n + 1) by omega]
  rw [e3, e4, mul_pow, e5, pow_one, mul_pow] at e1
  exact (mul_left_cancel₀ (pow_ne_zero 2 (pow_ne_zero _ hbl)) e1).symm

/-- The principal subresultant coefficient at the degree of the second polynomial. -/
theorem subresSq_psc (A B : R[X]) (m n : Nat) (hB : B.natDegree = n) (hmn : n ≤ m) :
    subresSq n n m n A B = (B.leadingCoeff ^ (m - n)) ^ 2 := by
  have hw := wlist_length (R := R) n n le_rfl
  have hwl : wlist (R := R) n n = (List.range n).map fun i => X ^ i := by
    rw [wlist, List.range_succ, List.erase_append_right _ (by simp)]; simp
  have e4 := pdet_split B n hB (wlist n n) hw 0 (m - n) (by
    intro f hf i hi
    rw [hwl] at hf
    obtain ⟨l, hl, rfl⟩ := List.mem_map.1 hf
    rw [coeff_X_pow, if_neg (by simp at hl; omega)])
  have hxs0 (f : R[X]) : xs f 0 = [] := rfl
  rw [Nat.zero_add, Nat.add_zero, hxs0, List.append_nil] at e4
  rw [subresSq, Nat.sub_self, hxs0, List.nil_append, Nat.zero_add, Nat.add_comm (m - n) n,
    pdet_perm List.perm_append_comm (by simp [hw]; omega), e4, mul_pow]
  rw [hwl, pdet_monomials, one_pow, mul_one]

theorem subresSq_isSq (j k m n : Nat) (A B : R[X]) : ∃ e, subresSq j k m n A B = e ^ 2 := ⟨_, rfl⟩

end PDet

section Domain
variable {α R : Type} [CommRing R] {S : DomainOps α} {v : α → R} (h : S.Models v)

/-- What holds at the head of the loop of the subresultant sequence of `A₀, A₁` (of degrees `m₀ ≥ n₀`). -/
structure PrsInv (v : α → R) (A₀ A₁ : R[X]) (st : PrsState α) : Prop where
  b_ne : polyVal v st.b ≠ 0
  bDeg : st.bDeg = (polyVal v st.b).natDegree
  r_lt : (polyVal v st.r).degree < (polyVal v st.b).degree
  lcB : v st.lcB = (polyVal v st.b).leadingCoeff
  gamma : v st.gamma ≠ 0
  sub : ∀ j k, polyVal v st.r ≠ 0 → j ≤ (polyVal v st.r).natDegree → k ≤ j →
    subresSq j k (polyVal v st.b).natDegree (polyVal v st.r).natDegree (polyVal v st.b) (polyVal v st.r)
      = ((polyVal v st.b).leadingCoeff ^ ((polyVal v st.r).natDegree - j)
          * v st.gamma ^ ((polyVal v st.b).natDegree - j - 1)) ^ 2
        * subresSq j k A₀.natDegree A₁.natDegree A₀ A₁

theorem subres_chain [IsDomain R] (A B c Q E : R[X]) (β la g g' D : R) (m n l j k : Nat) (hB : B.natDegree = n) (hB0 : B ≠ 0)
    (hc : c.natDegree = l) (hmn : n ≤ m) (hln : l < n) (hjl : j ≤ l) (hk : k ≤ j)
    (h : C (B.leadingCoeff ^ (m - n + 1)) * A = Q * B + C β * c) (hQ : Q.natDegree ≤ m - n)
    (hla : la ≠ 0) (hg : g ≠ 0) (hβ : β ^ 2 = (la * g ^ (m - n)) ^ 2)
    (hg' : (g' * g ^ (m - n)) ^ 2 = (B.leadingCoeff ^ (m - n) * g) ^ 2)
    (hD : subresSq j k m n A B = (la ^ (n - j) * g ^ (m - j - 1)) ^ 2 * D) :
    subresSq j k n l B c = (B.leadingCoeff ^ (l - j) * g' ^ (n - j - 1)) ^ 2 * D := by
  have hs := subresSq_step A B c Q β m n l j k hB hc.le hmn hln hjl hk h hQ
  have hb : B.leadingCoeff ≠ 0 := leadingCoeff_ne_zero.2 hB0
  rw [hD] at hs
  generalize B.leadingCoeff = b at *
  generalize subresSq j k n l B c = Z at *
  obtain ⟨δ, rfl⟩ : ∃ δ, m = n + δ := ⟨m - n, by omega⟩
  obtain ⟨t, rfl⟩ : ∃ t, l = j + t := ⟨l - j, by omega⟩
  obtain ⟨s, rfl⟩ : ∃ s, n = j + t + 1 + s := ⟨n - j - t - 1, by omega⟩
  rw [show j + t + 1 + s + δ - (j + t + 1 + s) = δ by omega] at *
  rw [show j + t + 1 + s - j = t + s + 1 by omega, show j + t + 1 + s + δ - j - 1 = t + s + δ by omega,
    show j + t + 1 + s + δ - (j + t) = 1 + s + δ by omega] at hs
  rw [show j + t - j = t by omega, show j + t + 1 + s - j - 1 = t + s by omega]
  have hβ' : (β ^ (t + s + 1)) ^ 2 = ((la * g ^ δ) ^ (t + s + 1)) ^ 2 := by
    rw [← pow_mul, mul_comm, pow_mul, hβ]; ring
  have hg2 : (g' ^ (t + s) * (g ^ δ) ^ (t + s)) ^ 2 = ((b ^ δ) ^ (t + s) * g ^ (t + s)) ^ 2 := by
    rw [← mul_pow, ← mul_pow, ← pow_mul, mul_comm (t + s) 2, pow_mul, hg']; ring
  rw [mul_pow (β ^ (t + s + 1)), hβ'] at hs
  have hne : ((la * g ^ δ) ^ (t + s + 1)) ^ 2 * (b ^ (1 + s + δ)) ^ 2 * (g ^ (t + s)) ^ 2 ≠ 0 := by
    refine mul_ne_zero (mul_ne_zero ?_ ?_) ?_ <;> simp [hla, hg, hb]
  apply mul_left_cancel₀ hne
  have lhs : ((la * g ^ δ) ^ (t + s + 1)) ^ 2 * (b ^ (1 + s + δ)) ^ 2 * (g ^ (t + s)) ^ 2 * Z
      = (g ^ (t + s)) ^ 2 * ((b ^ (δ + 1)) ^ (2 * (t + s + 1)) * ((la ^ (t + s + 1) * g ^ (t + s + δ)) ^ 2 * D)) := by
    rw [hs]; ring
  rw [lhs]
  have : (g ^ (t + s)) ^ 2 * ((b ^ (δ + 1)) ^ (2 * (t + s + 1)) * ((la ^ (t + s + 1) * g ^ (t + s + δ)) ^ 2 * D))
      = ((b ^ δ) ^ (t + s) * g ^ (t + s)) ^ 2 *
        (b ^ (t + s + 1 + δ) * la ^ (t + s + 1) * g ^ (t + s + δ)) ^ 2 * D := by ring
  rw [this, ← hg2]; ring

end Domain
end Verif.Rings
