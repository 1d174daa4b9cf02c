import Verif.Proofs.SmithClear

/-!
# The Smith algorithm
-/

namespace Verif.Rings

section Find

theorem findM?_some {ι : Type} (l : List ι) {p : ι → Option Bool} {q : ι → Bool} (hp : ∀ i ∈ l, p i = some (q i)) :
    l.findM? p = some (l.find? q) := by
  induction l with
  | nil => rfl
  | cons x l ih =>
    rw [List.findM?, List.find?, hp x (by simp)]
    simp only [Option.bind_eq_bind, Option.bind_some]
    cases q x with
    | true => rfl
    | false => exact ih fun i hi => hp i (by simp [hi])

end Find

section Sum
variable {R : Type} [CommRing R] {r c : Nat}

/-- add the rows `n+1, …, k-1` to row `n` -/
def sumE (R : Type) [CommRing R] {r : Nat} (n : Fin r) (k : Nat) : Matrix (Fin r) (Fin r) R :=
  Matrix.of fun i j => if i = n then (if (n : Nat) ≤ j ∧ (j : Nat) < k then 1 else 0) else (1 : Matrix (Fin r) (Fin r) R) i j

theorem sumE_mul_ne (n : Fin r) (k : Nat) (X : Matrix (Fin r) (Fin c) R) (i : Fin r) (j : Fin c) (hi : i ≠ n) :
    (sumE R n k * X) i j = X i j := by
  rw [Matrix.mul_apply, show (∑ l, (sumE R n k) i l * X l j) = ∑ l, (1 : Matrix (Fin r) (Fin r) R) i l * X l j from
    Finset.sum_congr rfl fun l _ => by rw [sumE, Matrix.of_apply, if_neg hi], ← Matrix.mul_apply, Matrix.one_mul]

theorem sumE_mul_self (n : Fin r) (k : Nat) (X : Matrix (Fin r) (Fin c) R) (j : Fin c) :
    (sumE R n k * X) n j = ∑ i : Fin r, if (n : Nat) ≤ i ∧ (i : Nat) < k then X i j else 0 := by
  rw [Matrix.mul_apply]
  refine Finset.sum_congr rfl fun l _ => ?_
  rw [sumE, Matrix.of_apply, if_pos rfl]
  split <;> simp

theorem sumE_start (n : Fin r) : (sumE R n (n + 1)) = 1 := by
  ext i j
  rw [sumE, Matrix.of_apply]
  by_cases hi : i = n
  · rw [if_pos hi, hi, Matrix.one_apply]
    by_cases hj : n = j
    · rw [if_pos hj, if_pos (by rw [← hj]; omega)]
    · rw [if_neg hj, if_neg (by rw [Fin.ext_iff] at hj; omega)]
  · rw [if_neg hi]

theorem sumE_succ (n : Fin r) (k : Nat) (hk : (n : Nat) < k) (hkr : k < r) :
    rowTwo (sumE R n k) n ⟨k, hkr⟩ 1 1 0 1 = sumE R n (k + 1) := by
  have hnk : n ≠ ⟨k, hkr⟩ := by rw [Ne, Fin.ext_iff]; simp; omega
  ext i j
  rw [rowTwo_apply]
  by_cases hi : i = ⟨k, hkr⟩
  · rw [if_pos hi, hi, zero_mul, zero_add, one_mul, sumE, sumE, Matrix.of_apply, Matrix.of_apply, if_neg hnk.symm, if_neg hnk.symm]
  · rw [if_neg hi]
    by_cases hi' : i = n
    · rw [if_pos hi', hi', one_mul, one_mul, sumE, sumE, Matrix.of_apply, Matrix.of_apply, Matrix.of_apply, if_pos rfl, if_pos rfl,
        if_neg hnk.symm, Matrix.one_apply]
      by_cases hj : (⟨k, hkr⟩ : Fin r) = j
      · have hj' : k = (j : Nat) := by rw [← hj]
        rw [if_pos hj, if_neg (by omega), if_pos (by omega), zero_add]
      · have hj' : k ≠ (j : Nat) := by rw [Fin.ext_iff] at hj; exact hj
        rw [if_neg hj, add_zero]
        by_cases h1 : (n : Nat) ≤ j ∧ (j : Nat) < k
        · rw [if_pos h1, if_pos (by omega)]
        · rw [if_neg h1, if_neg (by omega)]
    · rw [if_neg hi', sumE, sumE, Matrix.of_apply, Matrix.of_apply, if_neg hi', if_neg hi']

/-- what the fiddling step achieves: the new corner entry divides the old one and every column sum of the rest -/
theorem fiddle_dvd {n : Fin r} {n' : Fin c} (hnn : (n : Nat) = n') {H : Matrix (Fin r) (Fin c) R} (hdiag : DiagTo n H)
    (hrow : ∀ j : Fin c, (n : Nat) < j → H n j = 0) (hcol : ∀ i : Fin r, (n : Nat) < i → H i n' = 0) {F : Matrix (Fin c) (Fin c) R}
    (hF : GE n F) (hT : ∀ j : Fin c, (n : Nat) < j → (sumE R n r * H * F) n j = 0) :
    (sumE R n r * H * F) n n' ∣ H n n' ∧
      ∀ j, (sumE R n r * H * F) n n' ∣ ∑ i : Fin r, if (n : Nat) < i then (sumE R n r * H * F) i j else 0 := by
  set T := sumE R n r * H * F with hTdef
  have hlow : ∀ (i : Fin r) (j : Fin c), (n : Nat) ≤ i → (j : Nat) < n → H i j = 0 := fun i j hi hj => hdiag i j (.inr hj) (by omega)
  have hTn : ∀ j, T n j = if j = n' then T n n' else 0 := by
    intro j
    by_cases hj : j = n'
    · rw [if_pos hj, hj]
    · rw [if_neg hj]
      rcases Nat.lt_trichotomy (j : Nat) n with h1 | h1 | h1
      · rw [hTdef, hF.mul_col _ n j h1, sumE_mul_self]
        apply Finset.sum_eq_zero
        intro i _
        split
        · exact hlow i j (by omega) h1
        · rfl
      · exact absurd (Fin.ext (by omega)) hj
      · exact hT j h1
  have hsig : ∀ j, T n n' ∣ (sumE R n r * H) n j := by
    intro j
    have : sumE R n r * H = T * F⁻¹ := by
      rw [hTdef, Matrix.mul_assoc _ F, Matrix.mul_nonsing_inv F hF.unit, Matrix.mul_one]
    rw [this, Matrix.mul_apply]
    refine Finset.dvd_sum fun l _ => ?_
    rw [hTn l]
    split
    · exact dvd_mul_right _ _
    · rw [zero_mul]; exact dvd_zero _
  have hg : T n n' ∣ H n n' := by
    have := hsig n'
    rw [sumE_mul_self, Finset.sum_eq_single n] at this
    · rw [if_pos ⟨le_refl _, n.2⟩] at this
      exact this
    · intro i _ hi
      split
      · exact hcol i (by have : (i : Nat) ≠ n := fun e => hi (Fin.ext e)
                         omega)
      · rfl
    · simp
  refine ⟨hg, fun j => ?_⟩
  have e1 : T n j = (∑ i : Fin r, if (n : Nat) < i then T i j else 0) + (H * F) n j := by
    rw [hTdef, Matrix.mul_assoc, sumE_mul_self,
      ← Finset.add_sum_erase (f := fun i : Fin r => if (n : Nat) ≤ i ∧ (i : Nat) < r then (H * F) i j else 0) _ (Finset.mem_univ n),
      if_pos ⟨le_refl _, n.2⟩, ← Finset.add_sum_erase (f := fun i : Fin r => if (n : Nat) < i then (sumE R n r * (H * F)) i j else 0) _ (Finset.mem_univ n),
      if_neg (lt_irrefl _), zero_add, add_comm]
    congr 1
    refine Finset.sum_congr rfl fun i hi => ?_
    have hin : i ≠ n := Finset.ne_of_mem_erase hi
    have hin' : (i : Nat) ≠ n := fun e => hin (Fin.ext e)
    rw [sumE_mul_ne n r _ i j hin]
    by_cases h1 : (n : Nat) < i
    · rw [if_pos ⟨by omega, i.2⟩, if_pos h1]
    · rw [if_neg (by omega), if_neg h1]
  have e2 : (H * F) n j = H n n' * F n' j := by
    rw [Matrix.mul_apply, Finset.sum_eq_single n']
    · intro l _ hl
      have : (l : Nat) ≠ n := fun e => hl (Fin.ext (by omega))
      rcases Nat.lt_or_ge (l : Nat) n with h1 | h1
      · rw [hlow n l (le_refl _) h1, zero_mul]
      · rw [hrow l (by omega), zero_mul]
    · simp
  have e3 : (∑ i : Fin r, if (n : Nat) < i then T i j else 0) = T n j - H n n' * F n' j := by rw [e1, e2]; ring
  rw [e3]
  refine dvd_sub ?_ (dvd_mul_of_dvd_left hg _)
  rw [hTn j]
  split
  · exact dvd_refl _
  · exact dvd_zero _

end Sum

section
variable {α R : Type} [CommRing R] {S : BezoutOps α} {v : α → R} (h : S.Models v)
include h

theorem BezoutOps.Models.smithFiddleCols {r c : Nat} {A : Matrix (Fin r) (Fin c) R} (n : Fin r) (n' : Fin c) (hnn : (n : Nat) = n') (k : Nat)
    (hk : (n : Nat) < k) (hkc : k ≤ c) {st : SState α} {H : Matrix (Fin r) (Fin c) R} (hI : SHas v A st H)
    (hz : ∀ j : Fin c, (n : Nat) < j → (j : Nat) < k → H n j = 0) (hfav : k = n + 1 ∧ k < c ∨ S.IsFav v (H n n')) :
    ∃ st' F, (rangeFrom k c).foldlM (S.smithFiddleCol n) st = some st' ∧ SHas v A st' (H * F) ∧ GE n F ∧
      S.IsFav v ((H * F) n n') ∧ ∀ j : Fin c, (n : Nat) < j → (H * F) n j = 0 := by
  have hD := h.toGcd.toFav.toDomain
  have hS := hD.toRing.toSemi
  obtain ⟨d, hd⟩ : ∃ d, c - k = d := ⟨_, rfl⟩
  induction d generalizing k st H with
  | zero =>
    refine ⟨st, 1, by rw [rangeFrom_self (by omega)]; rfl, by rw [Matrix.mul_one]; exact hI, GE.id _, ?_, ?_⟩
    · rw [Matrix.mul_one]
      rcases hfav with h1 | h1
      · omega
      · exact h1
    · rw [Matrix.mul_one]
      exact fun j hj => hz j hj (by omega)
  | succ d ih =>
    have hlt : k < c := by omega
    rw [rangeFrom_cons hlt, List.foldlM_cons]
    obtain ⟨U, V, hV⟩ := hI
    obtain ⟨a, ea, ha⟩ := hV.m.get n n'
    obtain ⟨x, ex, hx⟩ := hV.m.get n ⟨k, hlt⟩
    have hI : SHas v A st H := ⟨U, V, hV⟩
    have ea' : st.m.get n n = some a := by have := ea; rw [← hnn] at this; exact this
    have ex' : st.m.get n k = some x := ex
    have hcol : S.smithFiddleCol n st k =
        if !S.isZero a || !S.isZero x then (S.clearOp n k a x).bind fun op => S.smithCol op st else some st := by
      unfold BezoutOps.smithFiddleCol
      rw [ea', ex']
      rfl
    have hzero : ∀ y, S.isZero y = true ↔ v y = 0 := fun y => by unfold SemiRingOps.isZero; rw [hS.equal, hS.zero]
    rw [hcol]
    by_cases hab : v a = 0 ∧ v x = 0
    · rw [if_neg (by rw [(hzero a).2 hab.1, (hzero x).2 hab.2]; simp)]
      change ∃ st' F, (rangeFrom (k + 1) c).foldlM (S.smithFiddleCol n) st = _ ∧ _
      apply ih (k + 1) (by omega) (by omega) hI _ _ (by omega)
      · intro j h1 h2
        by_cases hjk : (j : Nat) = k
        · have : j = ⟨k, hlt⟩ := Fin.ext hjk
          rw [this, ← hx, hab.2]
        · exact hz j h1 (by omega)
      · right
        rw [← ha, hab.1]
        exact h.toGcd.toFav.isFav_zero
    · rw [if_pos (by
        rw [Bool.or_eq_true, Bool.not_eq_true', Bool.not_eq_true', ← Bool.not_eq_true, ← Bool.not_eq_true, hzero, hzero]
        tauto)]
      obtain ⟨p, q, s, t, eop, h1, h2, h3, h4⟩ := h.clearOp n k a x hab
      have hval : (ElemOp.twoInv (n : Nat) k p q s t).Valid v c :=
        ⟨by omega, hlt, by omega, by rw [h1]; exact isUnit_one⟩
      obtain ⟨st1, e1, hI1⟩ := hD.smithCol hI hval
      have hF : ((ElemOp.twoInv (n : Nat) k p q s t).act v H.transpose).transpose =
          H * ((ElemOp.twoInv (n : Nat) k p q s t).act v (1 : Matrix (Fin c) (Fin c) R)).transpose := by
        rw [ElemOp.act_eq_mul, Matrix.transpose_mul, Matrix.transpose_transpose]
      have hact : ∀ (i : Fin r) (j : Fin c), ((ElemOp.twoInv (n : Nat) k p q s t).act v H.transpose).transpose i j =
          if j = ⟨k, hlt⟩ then v s * H i n' + v t * H i ⟨k, hlt⟩ else if j = n' then v p * H i n' + v q * H i ⟨k, hlt⟩ else H i j := by
        intro i j
        rw [Matrix.transpose_apply]
        unfold ElemOp.act
        dsimp only
        rw [dif_pos ⟨by omega, hlt⟩, rowTwo_apply]
        have : (⟨(n : Nat), by omega⟩ : Fin c) = n' := Fin.ext hnn
        rw [this]
        rfl
      have hnk : n' ≠ ⟨k, hlt⟩ := by rw [Ne, Fin.ext_iff]; simp; omega
      obtain ⟨st', F, e2, w1, w2, w3, w4⟩ := ih (k + 1) (by omega) (by omega) hI1
        (by
          intro j hj1 hj2
          rw [hact]
          by_cases hjk : (j : Nat) = k
          · rw [if_pos (Fin.ext hjk), ← ha, ← hx, h2]
          · rw [if_neg (by rw [Fin.ext_iff]; exact hjk), if_neg (by rw [Fin.ext_iff]; omega)]
            exact hz j hj1 (by omega))
        (.inr (by rw [hact, if_neg hnk, if_pos rfl, ← ha, ← hx]; exact h4)) (by omega)
      rw [hF, Matrix.mul_assoc] at w1 w3 w4
      refine ⟨st', _, ?_, w1, (hD.act_ge hval ⟨le_refl _, by omega⟩).transpose.mul w2, w3, w4⟩
      rw [eop, Option.bind_some, e1]
      exact e2

theorem BezoutOps.Models.smithFiddleRows {r c : Nat} {A : Matrix (Fin r) (Fin c) R} (n : Fin r) (n' : Fin c) (hnn : (n : Nat) = n') (k : Nat)
    (hk : (n : Nat) < k) (hkr : k ≤ r) (hrc : r ≤ c) {st : SState α} {H : Matrix (Fin r) (Fin c) R} {F : Matrix (Fin c) (Fin c) R}
    (hI : SHas v A st (sumE R n k * H * F)) (hE : GE (n : Nat) (sumE R n k)) (hF : GE n F)
    (hz : ∀ j : Fin c, (n : Nat) < j → (sumE R n k * H * F) n j = 0) (hfav : S.IsFav v ((sumE R n k * H * F) n n')) :
    ∃ st' F', (rangeFrom k r).foldlM (S.smithFiddleRow n c) st = some st' ∧ SHas v A st' (sumE R n r * H * F') ∧
      GE (n : Nat) (sumE R n r) ∧ GE n F' ∧ S.IsFav v ((sumE R n r * H * F') n n') ∧
      ∀ j : Fin c, (n : Nat) < j → (sumE R n r * H * F') n j = 0 := by
  have hD := h.toGcd.toFav.toDomain
  have hS := hD.toRing.toSemi
  obtain ⟨d, hd⟩ : ∃ d, r - k = d := ⟨_, rfl⟩
  induction d generalizing k st F with
  | zero =>
    have hkr' : k = r := by omega
    subst hkr'
    exact ⟨st, F, by rw [rangeFrom_self (le_refl _)]; rfl, hI, hE, hF, hfav, hz⟩
  | succ d ih =>
    have hlt : k < r := by omega
    rw [rangeFrom_cons hlt, List.foldlM_cons]
    have hval : (ElemOp.addRowMul (n : Nat) k S.one).Valid v r := ⟨n.2, hlt, by omega⟩
    obtain ⟨st1, e1, hI1⟩ := hD.smithRow hI hval
    have hsum : (ElemOp.addRowMul (n : Nat) k S.one).act v (sumE R n k) = sumE R n (k + 1) := by
      unfold ElemOp.act
      dsimp only
      rw [dif_pos ⟨n.2, hlt⟩, hS.one]
      exact sumE_succ n k hk hlt
    have hE' : GE (n : Nat) (sumE R n (k + 1)) := by
      rw [← hsum, ElemOp.act_eq_mul]
      exact (hD.act_ge hval ⟨le_refl _, by omega⟩).mul hE
    rw [ElemOp.act_mul, ElemOp.act_mul, hsum] at hI1
    obtain ⟨st2, F2, e2, w1, w2, w3, w4⟩ := h.smithFiddleCols n n' hnn (n + 1) (by omega) (by omega) hI1 (fun j h1 h2 => by omega)
      (.inl ⟨rfl, by omega⟩)
    rw [Matrix.mul_assoc _ F] at w1 w3 w4
    obtain ⟨st', F', e3, t⟩ := ih (k + 1) (by omega) (by omega) w1 hE' (hF.mul w2) w4 w3 (by omega)
    refine ⟨st', F', ?_, t⟩
    unfold BezoutOps.smithFiddleRow
    rw [e1]
    simp only [Option.bind_eq_bind, Option.bind_some]
    rw [e2]
    exact e3

theorem BezoutOps.Models.smithFixLoop {r c : Nat} {A : Matrix (Fin r) (Fin c) R} (n : Fin r) (n' : Fin c) (hnn : (n : Nat) = n') (k : Nat)
    (hk : (n : Nat) < k) (hkr : k ≤ r) {st : SState α} {H : Matrix (Fin r) (Fin c) R} (hI : SHas v A st H)
    (hnz : H n n' ≠ 0) (hrow : ∀ j, j ≠ n' → H n j = 0) :
    ((∀ i : Fin r, k ≤ (i : Nat) → H n n' ∣ H i n') → ∃ st' E, (rangeFrom k r).foldlM (S.smithFix n) st = some st' ∧ SHas v A st' (E * H) ∧
      GE n E ∧ (∀ i j, j ≠ n' → (E * H) i j = H i j) ∧ (∀ i : Fin r, (i : Nat) < k → (E * H) i n' = H i n') ∧
      ∀ i : Fin r, k ≤ (i : Nat) → (E * H) i n' = 0) ∧
    (∀ st', (rangeFrom k r).foldlM (S.smithFix n) st = some st' → ∀ i : Fin r, k ≤ (i : Nat) → H n n' ∣ H i n') := by
  have hD := h.toGcd.toFav.toDomain
  have hS := hD.toRing.toSemi
  obtain ⟨d, hd⟩ : ∃ d, r - k = d := ⟨_, rfl⟩
  induction d generalizing k st H with
  | zero =>
    refine ⟨fun _ => ⟨st, 1, by rw [rangeFrom_self (by omega)]; rfl, by rw [Matrix.one_mul]; exact hI, GE.id _, ?_, ?_, ?_⟩, ?_⟩
    · intro i j _; rw [Matrix.one_mul]
    · intro i _; rw [Matrix.one_mul]
    · intro i hi; omega
    · intro _ _ i hi; omega
  | succ d ih =>
    have hlt : k < r := by omega
    rw [rangeFrom_cons hlt, List.foldlM_cons]
    obtain ⟨U, V, hV⟩ := hI
    obtain ⟨a, ea, ha⟩ := hV.m.get n n'
    obtain ⟨x, ex, hx⟩ := hV.m.get ⟨k, hlt⟩ n'
    have hI : SHas v A st H := ⟨U, V, hV⟩
    have ea' : st.m.get n n = some a := by have := ea; rw [← hnn] at this; exact this
    have ex' : st.m.get k n = some x := by have := ex; rw [← hnn] at this; exact this
    by_cases hdv : H n n' ∣ H ⟨k, hlt⟩ n'
    · obtain ⟨q, eq, hq⟩ := hD.div_ok x a (by rw [ha]; exact hnz) (by rw [ha, hx]; exact hdv)
      have hval : (ElemOp.addRowMul k (n : Nat) (S.neg q)).Valid v r := ⟨hlt, n.2, by omega⟩
      obtain ⟨st1, e1, hI1⟩ := hD.smithRow hI hval
      have hstep : S.smithFix n st k = some st1 := by
        unfold BezoutOps.smithFix
        simp only [ea', ex', eq, unwrapDiv, e1, Option.bind_eq_bind, Option.bind_some]
      have hact : ∀ (i : Fin r) (j : Fin c), (ElemOp.addRowMul k (n : Nat) (S.neg q)).act v H i j =
          if i = n then H n j else if i = ⟨k, hlt⟩ then H ⟨k, hlt⟩ j - v q * H n j else H i j := by
        intro i j
        unfold ElemOp.act
        dsimp only
        rw [dif_pos ⟨hlt, n.2⟩, rowTwo_apply, hD.toRing.neg]
        by_cases hi : i = n
        · rw [if_pos hi, if_pos hi]; ring
        · rw [if_neg hi, if_neg hi]
          by_cases hi' : i = ⟨k, hlt⟩
          · rw [if_pos hi', if_pos hi']; ring
          · rw [if_neg hi', if_neg hi']
      have hne : ∀ i j, j ≠ n' → (ElemOp.addRowMul k (n : Nat) (S.neg q)).act v H i j = H i j := by
        intro i j hj
        rw [hact]
        by_cases hi : i = n
        · rw [if_pos hi, hi]
        · rw [if_neg hi]
          by_cases hi' : i = ⟨k, hlt⟩
          · rw [if_pos hi', hrow j hj, mul_zero, sub_zero, hi']
          · rw [if_neg hi']
      have hoth : ∀ i : Fin r, (i : Nat) ≠ k → (ElemOp.addRowMul k (n : Nat) (S.neg q)).act v H i n' = H i n' := by
        intro i hi
        rw [hact]
        by_cases hi1 : i = n
        · rw [if_pos hi1, hi1]
        · rw [if_neg hi1, if_neg (by rw [Fin.ext_iff]; exact hi)]
      have hkz : (ElemOp.addRowMul k (n : Nat) (S.neg q)).act v H ⟨k, hlt⟩ n' = 0 := by
        rw [hact, if_neg (by rw [Fin.ext_iff]; simp; omega), if_pos rfl, ← ha, ← hx, hq, sub_self]
      have hnn2 := hoth n (by omega)
      obtain ⟨ih1, ih2⟩ := ih (k + 1) (by omega) (by omega) hI1 (by rw [hnn2]; exact hnz)
        (fun j hj => by rw [hne n j hj]; exact hrow j hj) (by omega)
      rw [hnn2] at ih1 ih2
      rw [hstep]
      simp only [Option.bind_eq_bind, Option.bind_some]
      constructor
      · intro hall
        obtain ⟨st', E, e2, w1, w2, w3, w4, w5⟩ := ih1 fun i hi => by rw [hoth i (by omega)]; exact hall i (by omega)
        rw [ElemOp.act_eq_mul, ← Matrix.mul_assoc] at w1 w3 w4 w5
        refine ⟨st', _, e2, w1, w2.mul (hD.act_ge hval ⟨by omega, le_refl _⟩), ?_, ?_, ?_⟩
        · intro i j hj
          rw [w3 i j hj, ← ElemOp.act_eq_mul, hne i j hj]
        · intro i hi
          rw [w4 i (by omega), ← ElemOp.act_eq_mul, hoth i (by omega)]
        · intro i hi
          by_cases hik : (i : Nat) = k
          · have : i = ⟨k, hlt⟩ := Fin.ext hik
            rw [w4 i (by omega), ← ElemOp.act_eq_mul, this, hkz]
          · exact w5 i (by omega)
      · intro st' e i hi
        by_cases hik : (i : Nat) = k
        · have : i = ⟨k, hlt⟩ := Fin.ext hik
          rw [this]; exact hdv
        · rw [← hoth i hik]
          exact ih2 st' e i (by omega)
    · have hstep : S.smithFix n st k = none := by
        unfold BezoutOps.smithFix
        simp only [ea', ex', hD.div_not x a (by rw [ha]; exact hnz) (by rw [ha, hx]; exact hdv), unwrapDiv, Option.bind_eq_bind,
          Option.bind_some, Option.bind_none]
      rw [hstep]
      refine ⟨fun hall => absurd (hall ⟨k, hlt⟩ (le_refl _)) hdv, ?_⟩
      intro st' e
      simp at e

theorem BezoutOps.Models.smithUnit {r c : Nat} {A : Matrix (Fin r) (Fin c) R} (n : Fin r) (n' : Fin c) (hnn : (n : Nat) = n')
    {st : SState α} {H : Matrix (Fin r) (Fin c) R} (hI : SHas v A st H) (hnz : H n n' ≠ 0) :
    ∃ st' E, S.smithUnit n st = some st' ∧ SHas v A st' (E * H) ∧ GE n E ∧ (E * H) n n' ≠ 0 ∧ S.IsFav v ((E * H) n n') := by
  haveI := h.toGcd.toFav.toDomain.domain
  have hD := h.toGcd.toFav.toDomain
  obtain ⟨U, V, hV⟩ := hI
  obtain ⟨x, ex, hx⟩ := hV.m.get n n'
  have ex' : st.m.get n n = some x := by have := ex; rw [← hnn] at this; exact this
  have hI : SHas v A st H := ⟨U, V, hV⟩
  obtain ⟨u, w, ef, hu, huw⟩ := h.toGcd.toFav.fav x
  obtain ⟨i, ei, hi⟩ := hD.inv_unwrap u hu
  have hiu : IsUnit (v i) := IsUnit.of_mul_eq_one (v u) hi
  have hval : (ElemOp.unitMul (n : Nat) i).Valid v r := ⟨n.2, hiu⟩
  obtain ⟨st1, e1, hI1⟩ := hD.smithRow hI hval
  have hpiv : (ElemOp.unitMul (n : Nat) i).act v H n n' = v w := by
    unfold ElemOp.act
    dsimp only
    rw [dif_pos n.2, rowScale_apply, if_pos rfl, ← hx, huw, ← mul_assoc, hi, one_mul]
  refine ⟨st1, _, ?_, by rw [← ElemOp.act_eq_mul]; exact hI1, hD.act_ge hval (le_refl _), ?_, ?_⟩
  · unfold BezoutOps.smithUnit
    simp only [ex', ef, ei, Option.bind_eq_bind, Option.bind_some, e1]
  · rw [← ElemOp.act_eq_mul, hpiv]
    intro h0
    rw [← hx, huw, h0, mul_zero] at hnz
    exact hnz rfl
  · rw [← ElemOp.act_eq_mul, hpiv]
    obtain ⟨w', e', -, hf⟩ := h.toGcd.toFav.favAssoc x
    unfold FavOps.favAssoc at e'
    rw [ef] at e'
    simp only [Option.map_some, Option.some.injEq] at e'
    rw [e']
    exact hf

/-- the search in the first row -/
theorem BezoutOps.Models.smithSearch {r c : Nat} {A : Matrix (Fin r) (Fin c) R} (n : Fin r) (n' : Fin c) (hnn : (n : Nat) = n')
    {st : SState α} {H : Matrix (Fin r) (Fin c) R} (hI : SHas v A st H) (hdiag : DiagTo n H) (hne : ∃ j, H n j ≠ 0) :
    ∃ st' F, S.smithSearch n r c st = some (some st') ∧ SHas v A st' (H * F) ∧ GE n F ∧ (H * F) n n' ≠ 0 := by
  have hD := h.toGcd.toFav.toDomain
  have hS := hD.toRing.toSemi
  obtain ⟨U, V, hV⟩ := hI
  have hI : SHas v A st H := ⟨U, V, hV⟩
  have hnzAt : ∀ (j : Nat) (hj : j < c), S.nonzeroAt st.m n j = some (@decide (H n ⟨j, hj⟩ ≠ 0) (Classical.propDecidable _)) := by
    intro j hj
    obtain ⟨b, e, hb⟩ := hS.nonzeroAt hV.m n ⟨j, hj⟩
    rw [show S.nonzeroAt st.m n j = some b from e]
    congr 1
    rw [Bool.eq_iff_iff, hb]
    simp
  unfold DomainOps.smithSearch
  have e0 := hnzAt n (by omega)
  have hn' : (⟨(n : Nat), by omega⟩ : Fin c) = n' := Fin.ext hnn
  rw [hn'] at e0
  by_cases h0 : H n n' = 0
  · rw [e0, @decide_eq_false _ (Classical.propDecidable _) (by simpa using h0)]
    simp only [Option.bind_eq_bind, Option.bind_some]
    classical
    let q : Nat → Bool := fun j => if hj : j < c then decide (H n ⟨j, hj⟩ ≠ 0) else false
    have hfind : ((rangeFrom (n + 1) c).findM? fun j => S.nonzeroAt st.m n j) = some ((rangeFrom (n + 1) c).find? q) := by
      apply findM?_some
      intro j hj
      have hj' := (mem_rangeFrom.1 hj).2
      rw [hnzAt j hj']
      simp [q, hj']
    unfold DomainOps.smithSearchRow
    rw [hfind]
    simp only [Option.bind_eq_bind, Option.bind_some]
    cases hq : (rangeFrom (n + 1) c).find? q with
    | none =>
      exfalso
      obtain ⟨j, hj⟩ := hne
      rw [List.find?_eq_none] at hq
      rcases Nat.lt_trichotomy (j : Nat) n with h1 | h1 | h1
      · exact hj (hdiag n j (.inr h1) (by omega))
      · have : j = n' := Fin.ext (by omega)
        rw [this] at hj
        exact hj h0
      · refine hq j (mem_rangeFrom.2 ⟨by omega, j.2⟩) ?_
        simp [q, hj]
    | some k =>
      have hk := mem_rangeFrom.1 (List.mem_of_find?_eq_some hq)
      have hqk := List.find?_some hq
      have hkne : H n ⟨k, hk.2⟩ ≠ 0 := by
        simp only [q, hk.2, dif_pos, decide_eq_true_eq] at hqk
        exact hqk
      have hval : (ElemOp.swap (n : Nat) k : ElemOp α).Valid v c := ⟨by omega, hk.2, by omega⟩
      obtain ⟨st1, e1, hI1⟩ := hD.smithCol hI hval
      have hF : ((ElemOp.swap (n : Nat) k : ElemOp α).act v H.transpose).transpose =
          H * ((ElemOp.swap (n : Nat) k : ElemOp α).act v (1 : Matrix (Fin c) (Fin c) R)).transpose := by
        rw [ElemOp.act_eq_mul, Matrix.transpose_mul, Matrix.transpose_transpose]
      refine ⟨st1, _, ?_, by rw [← hF]; exact hI1, (hD.act_ge hval ⟨le_refl _, by omega⟩).transpose, ?_⟩
      · dsimp only
        rw [e1]
        rfl
      · rw [← hF, Matrix.transpose_apply]
        unfold ElemOp.act
        dsimp only
        rw [dif_pos ⟨by omega, hk.2⟩, rowTwo_apply, hn', if_neg (by rw [Fin.ext_iff]; simp; omega), if_pos rfl]
        simpa using hkne
  · rw [e0, @decide_eq_true _ (Classical.propDecidable _) h0]
    exact ⟨st, 1, rfl, by rw [Matrix.mul_one]; exact hI, GE.id _, by rw [Matrix.mul_one]; exact h0⟩

/-- one round of the induction -/
theorem BezoutOps.Models.smithStep [WfDvdMonoid R] {r c : Nat} {A : Matrix (Fin r) (Fin c) R} (n : Fin r) (n' : Fin c) (hnn : (n : Nat) = n')
    (hrc : r ≤ c) {st : SState α} {H : Matrix (Fin r) (Fin c) R} (hI : SHas v A st H) (hdiag : DiagTo n H) (hnz : H n n' ≠ 0) :
    (∀ st', S.smithStep n r c st = some st' → ∃ E F, SHas v A st' (E * H * F) ∧ GE n E ∧ GE n F ∧ DiagTo (n + 1) (E * H * F) ∧
      (E * H * F) n n' ≠ 0 ∧ S.IsFav v ((E * H * F) n n') ∧
      ∀ j, (E * H * F) n n' ∣ ∑ i : Fin r, if (n : Nat) < i then (E * H * F) i j else 0) ∧
    (r ≤ n + 2 → ∃ st', S.smithStep n r c st = some st') := by
  haveI := h.toGcd.toFav.toDomain.domain
  have hD := h.toGcd.toFav.toDomain
  have hS := hD.toRing.toSemi
  obtain ⟨st1, E1, e1, a1, a2, a3, a4⟩ := h.smithUnit n n' hnn hI hnz
  obtain ⟨st2, E2, F2, e2, b1, b2, b3, b4, b5, b6, b7⟩ := h.smithZero n n' hnn true a1 a3 a4 (by simp)
  have hdiag2 : DiagTo n (E2 * (E1 * H) * F2) := (b2.diag b3 (a2.diag_row hdiag).1).1
  set H2 := E2 * (E1 * H) * F2 with hH2
  obtain ⟨st3, F3, e3, c1, c2, c3, c4, c5⟩ := h.smithFiddleRows n n' hnn (n + 1) (by omega) n.2 hrc (H := H2) (F := 1)
    (by rw [sumE_start, Matrix.one_mul, Matrix.mul_one]; exact b1) (by rw [sumE_start]; exact GE.id _) (GE.id _)
    (by rw [sumE_start, Matrix.one_mul, Matrix.mul_one]; exact b7) (by rw [sumE_start, Matrix.one_mul, Matrix.mul_one]; exact b5)
  obtain ⟨d1, d2⟩ := fiddle_dvd hnn hdiag2 b7 b6 c3 c5
  have hdiag3 : DiagTo n (sumE R n r * H2 * F3) := (c2.diag c3 hdiag2).1
  set T := sumE R n r * H2 * F3 with hT
  have hTnz : T n n' ≠ 0 := fun h0 => b4 (by rw [h0, zero_dvd_iff] at d1; exact d1)
  have hTrow : ∀ j, j ≠ n' → T n j = 0 := by
    intro j hj
    have hj' : (j : Nat) ≠ n := fun e => hj (Fin.ext (by omega))
    rcases Nat.lt_or_ge (j : Nat) n with h1 | h1
    · exact hdiag3 n j (.inr h1) (by omega)
    · exact c5 j (by omega)
  obtain ⟨f1, f2⟩ := h.smithFixLoop n n' hnn (n + 1) (by omega) n.2 c1 hTnz hTrow
  have hstep : S.smithStep n r c st = (rangeFrom (n + 1) r).foldlM (S.smithFix n) st3 := by
    obtain ⟨U, V, hV⟩ := b1
    obtain ⟨b, eb, hb⟩ := hS.nonzeroAt hV.m n n'
    have eb' : S.nonzeroAt st2.m n n = some true := by
      rw [show S.nonzeroAt st2.m n n = S.nonzeroAt st2.m n n' by rw [← hnn], eb, hb.2 b4]
    unfold BezoutOps.smithStep
    simp only [e1, e2, eb', e3, assertThat, if_true, Option.bind_eq_bind, Option.bind_some]
  rw [hstep]
  constructor
  · intro st' e
    have hall := f2 st' e
    obtain ⟨st4, E4, e4, w1, w2, w3, w4, w5⟩ := f1 hall
    rw [e4] at e
    obtain rfl : st4 = st' := by simpa using e
    have hEF : E4 * T = (E4 * sumE R n r * E2 * E1) * H * (F2 * F3) := by
      rw [hT, hH2]; simp only [Matrix.mul_assoc]
    refine ⟨E4 * sumE R n r * E2 * E1, F2 * F3, by rw [← hEF]; exact w1, ((w2.mul c2).mul b2).mul a2, b3.mul c3, ?_, ?_, ?_, ?_⟩
    all_goals rw [← hEF]
    · intro i j hij hne
      have hd := (w2.diag_row hdiag3).1
      by_cases h1 : (i : Nat) < n ∨ (j : Nat) < n
      · exact hd i j h1 hne
      · by_cases hi : (i : Nat) = n
        · have hi' : i = n := Fin.ext hi
          have hj : j ≠ n' := fun e => hne (by rw [e]; omega)
          rw [hi', w3 n j hj, hTrow j hj]
        · have hj : j = n' := Fin.ext (by omega)
          rw [hj, w5 i (by omega)]
    · rw [w4 n (by omega)]; exact hTnz
    · rw [w4 n (by omega)]; exact c4
    · intro j
      rw [w4 n (by omega)]
      by_cases hj : j = n'
      · rw [hj]
        refine Finset.dvd_sum fun i _ => ?_
        split
        · rw [w5 i (by omega)]; exact dvd_zero _
        · exact dvd_zero _
      · rw [show (∑ i : Fin r, if (n : Nat) < i then (E4 * T) i j else 0) = ∑ i : Fin r, if (n : Nat) < i then T i j else 0 from
          Finset.sum_congr rfl fun i _ => by rw [w3 i j hj]]
        exact d2 j
  · intro hr
    obtain ⟨st', E4, e4, _⟩ := f1 (by
      intro i hi
      have := d2 n'
      rw [Finset.sum_eq_single i] at this
      · rw [if_pos (by omega)] at this
        exact this
      · intro k _ hk
        rw [if_neg]
        intro hnk
        exact hk (Fin.ext (by omega))
      · simp)
    exact ⟨st', e4⟩

theorem SHas.indep {r c : Nat} {A H : Matrix (Fin r) (Fin c) R} {st : SState α} (hI : SHas v A st H)
    (hA : ∀ y, Matrix.vecMul y A = 0 → y = 0) : ∀ y, Matrix.vecMul y H = 0 → y = 0 := by
  obtain ⟨U, V, hV⟩ := hI
  intro y hy
  have h1 : Matrix.vecMul (Matrix.vecMul y U) A = 0 := by
    have : Matrix.vecMul (Matrix.vecMul y H) V⁻¹ = 0 := by rw [hy, Matrix.zero_vecMul]
    rw [hV.mul, Matrix.vecMul_vecMul, Matrix.mul_assoc, Matrix.mul_nonsing_inv V hV.detV, Matrix.mul_one] at this
    rw [Matrix.vecMul_vecMul]
    exact this
  have h2 := hA _ h1
  have h3 : Matrix.vecMul (Matrix.vecMul y U) U⁻¹ = 0 := by rw [h2, Matrix.zero_vecMul]
  rwa [Matrix.vecMul_vecMul, Matrix.mul_nonsing_inv U hV.detU, Matrix.vecMul_one] at h3

/-- the loop: what the result looks like, and that it returns when at most two rows are left -/
theorem BezoutOps.Models.smithLoop [WfDvdMonoid R] {r c : Nat} {A : Matrix (Fin r) (Fin c) R} (hA : ∀ y, Matrix.vecMul y A = 0 → y = 0)
    (hrc : r ≤ c) (n : Nat) (hn : n ≤ r) {st : SState α} {H : Matrix (Fin r) (Fin c) R} (hI : SHas v A st H) (hdiag : DiagTo n H) :
    (∀ st' k, S.smithLoop n r c st = some (st', k) → k = r ∧ ∃ E F, SHas v A st' (E * H * F) ∧ GE n E ∧ GE n F ∧ DiagTo r (E * H * F) ∧
      (∀ (i : Fin r) (j : Fin c), n ≤ (i : Nat) → (i : Nat) = j → (E * H * F) i j ≠ 0 ∧ S.IsFav v ((E * H * F) i j)) ∧
      (∀ (i : Fin r) (j : Fin c), n ≤ (i : Nat) → (i : Nat) = j → ∀ (a : Fin r) (b : Fin c), (a : Nat) + 1 = r → (b : Nat) = a →
        (E * H * F) i j ∣ (E * H * F) a b)) ∧
    (r ≤ n + 2 → ∃ st', S.smithLoop n r c st = some st') := by
  haveI := h.toGcd.toFav.toDomain.domain
  have hS := h.toGcd.toFav.toDomain.toRing.toSemi
  haveI : Nontrivial R := inferInstance
  obtain ⟨d, hd⟩ : ∃ d, r - n = d := ⟨_, rfl⟩
  induction d generalizing n st H with
  | zero =>
    rw [BezoutOps.smithLoop, if_neg (by omega)]
    refine ⟨?_, fun _ => ⟨_, rfl⟩⟩
    intro st' k e
    simp only [Option.some.injEq, Prod.mk.injEq] at e
    obtain ⟨rfl, rfl⟩ := e
    have hnr : n = r := by omega
    refine ⟨hnr, 1, 1, by rw [Matrix.one_mul, Matrix.mul_one]; exact hI, GE.id _, GE.id _, ?_, ?_, ?_⟩
    · rw [Matrix.one_mul, Matrix.mul_one]; exact fun i j hij hne => hdiag i j (by omega) hne
    · intro i j hi; omega
    · intro i j hi; omega
  | succ d ih =>
    have hlt : n < r := by omega
    have hltc : n < c := by omega
    rw [BezoutOps.smithLoop, if_pos ⟨hlt, hltc⟩]
    have hne : ∃ j, H ⟨n, hlt⟩ j ≠ 0 := by
      by_contra hcon
      push Not at hcon
      have : Matrix.vecMul (Pi.single ⟨n, hlt⟩ (1 : R)) H = 0 := by
        funext j
        rw [Matrix.single_one_vecMul]
        exact hcon j
      have h2 := SHas.indep h hI hA _ this
      have h3 := congrFun h2 ⟨n, hlt⟩
      simp at h3
    obtain ⟨st1, F1, e1, a1, a2, a3⟩ := h.smithSearch ⟨n, hlt⟩ ⟨n, hltc⟩ rfl hI hdiag hne
    rw [show S.smithSearch n r c st = some (some st1) from e1]
    simp only [Option.bind_eq_bind, Option.bind_some]
    obtain ⟨s1, s2⟩ := h.smithStep ⟨n, hlt⟩ ⟨n, hltc⟩ rfl hrc a1 (a2.diag_col hdiag).1 a3
    change (∀ st', S.smithStep n r c st1 = some st' → _) at s1
    change (r ≤ n + 2 → ∃ st', S.smithStep n r c st1 = some st') at s2
    -- after the step
    have hafter : ∀ st2, S.smithStep n r c st1 = some st2 → ∃ E F, SHas v A st2 (E * H * F) ∧ GE n E ∧ GE n F ∧
        DiagTo (n + 1) (E * H * F) ∧ (E * H * F) ⟨n, hlt⟩ ⟨n, hltc⟩ ≠ 0 ∧ S.IsFav v ((E * H * F) ⟨n, hlt⟩ ⟨n, hltc⟩) ∧
        (n + 1 < r → KerMod (n + 1) (E * H * F) ((E * H * F) ⟨n, hlt⟩ ⟨n, hltc⟩)) ∧ S.nonzeroAt st2.m n n = some true := by
      intro st2 e2
      obtain ⟨E2, F2, b1, b2, b3, b4, b5, b6, b7⟩ := s1 st2 e2
      have hEF : E2 * (H * F1) * F2 = E2 * H * (F1 * F2) := by simp only [Matrix.mul_assoc]
      rw [hEF] at b1 b4 b5 b6 b7
      refine ⟨E2, F1 * F2, b1, b2, a2.mul b3, b4, b5, b6, ?_, ?_⟩
      · intro hr
        refine ⟨fun i => if n < (i : Nat) then 1 else 0, Pi.single ⟨n + 1, hr⟩ 1, ?_, ?_, ?_⟩
        · intro i hi
          dsimp only
          rw [if_neg (by omega)]
        · rw [Finset.sum_eq_single ⟨n + 1, hr⟩]
          · simp
          · intro i _ hi
            rw [Pi.single_eq_of_ne hi, mul_zero]
          · simp
        · intro j
          have := b7 j
          rw [Matrix.vecMul, dotProduct]
          rw [show (∑ i : Fin r, (if n < (i : Nat) then (1 : R) else 0) * (E2 * H * (F1 * F2)) i j) =
            ∑ i : Fin r, if n < (i : Nat) then (E2 * H * (F1 * F2)) i j else 0 from
            Finset.sum_congr rfl fun i _ => by split <;> simp]
          exact this
      · obtain ⟨U, V, hV⟩ := b1
        obtain ⟨b, eb, hb⟩ := hS.nonzeroAt hV.m ⟨n, hlt⟩ ⟨n, hltc⟩
        rw [show S.nonzeroAt st2.m n n = some b from eb, hb.2 b5]
    constructor
    · intro st' k e
      cases e2 : S.smithStep n r c st1 with
      | none => rw [e2] at e; simp at e
      | some st2 =>
        obtain ⟨E2, F2, b1, b2, b3, b4, b5, b6, b7, b8⟩ := hafter st2 e2
        rw [e2] at e
        simp only [Option.bind_some, b8] at e
        obtain ⟨hk, E3, F3, w1, w2, w3, w4, w5, w6⟩ := (ih (n + 1) (by omega) b1 b4 (by omega)).1 st' k e
        have hEF : E3 * (E2 * H * F2) * F3 = E3 * E2 * H * (F2 * F3) := by simp only [Matrix.mul_assoc]
        have hdn := (w2.diag w3 b4).2 ⟨n, hlt⟩ ⟨n, hltc⟩ (by simp) (by simp)
        have hker : n + 1 < r → KerMod (n + 1) (E3 * (E2 * H * F2) * F3) ((E2 * H * F2) ⟨n, hlt⟩ ⟨n, hltc⟩) :=
          fun hr => w2.kerMod (b7 hr)
        rw [hEF] at w1 w4 w5 w6 hdn hker
        refine ⟨hk, E3 * E2, F2 * F3, w1, (w2.mono (by omega)).mul b2, b3.mul (w3.mono (by omega)), w4, ?_, ?_⟩
        · intro i j hi hij
          by_cases hin : (i : Nat) = n
          · have h1 : i = ⟨n, hlt⟩ := Fin.ext hin
            have h2 : j = ⟨n, hltc⟩ := Fin.ext (by omega)
            rw [h1, h2, hdn]
            exact ⟨b5, b6⟩
          · exact w5 i j (by omega) hij
        · intro i j hi hij a b ha hb
          by_cases hin : (i : Nat) = n
          · have h1 : i = ⟨n, hlt⟩ := Fin.ext hin
            have h2 : j = ⟨n, hltc⟩ := Fin.ext (by omega)
            by_cases hr : n + 1 < r
            · rw [h1, h2, hdn]
              refine (hker hr).dvd hrc (fun i j hne => w4 i j (.inl i.2) hne) ?_
              intro i j hi hij
              exact w6 i j (by omega) hij a b ha hb
            · have h3 : a = ⟨n, hlt⟩ := Fin.ext (by omega)
              have h4 : b = ⟨n, hltc⟩ := Fin.ext (by omega)
              rw [h1, h2, h3, h4]
          · exact w6 i j (by omega) hij a b ha hb
    · intro hr
      obtain ⟨st2, e2⟩ := s2 hr
      obtain ⟨E2, F2, b1, b2, b3, b4, b5, b6, b7, b8⟩ := hafter st2 e2
      rw [e2]
      simp only [Option.bind_some, b8]
      exact (ih (n + 1) (by omega) b1 b4 (by omega)).2 (by omega)

/-- The Smith algorithm on a matrix with linearly independent rows. -/
theorem BezoutOps.Models.smith [WfDvdMonoid R] {r c : Nat} {m : Mat α} {A : Matrix (Fin r) (Fin c) R} (hm : m.Denotes v A)
    (hA : ∀ y, Matrix.vecMul y A = 0 → y = 0) (hrc : r ≤ c) :
    (∀ res, S.smith m = some res → res.k = r ∧ ∃ U D V, res.u.Denotes v U ∧ res.s.Denotes v D ∧ res.v.Denotes v V ∧ D = U * A * V ∧
      IsUnit U.det ∧ IsUnit V.det ∧ (∀ (i : Fin r) (j : Fin c), (i : Nat) ≠ j → D i j = 0) ∧
      (∀ (i : Fin r) (j : Fin c), (i : Nat) = j → D i j ≠ 0 ∧ S.IsFav v (D i j)) ∧
      (∀ (i : Fin r) (j : Fin c) (a : Fin r) (b : Fin c), (i : Nat) = j → (a : Nat) + 1 = r → (b : Nat) = a → D i j ∣ D a b)) ∧
    (r ≤ 2 → ∃ res, S.smith m = some res) := by
  have hD := h.toGcd.toFav.toDomain
  have hS := hD.toRing.toSemi
  obtain ⟨u, eu, hu⟩ := hS.matIdent r
  obtain ⟨w, ew, hw⟩ := hS.matIdent c
  have hI : SHas v A ⟨m, u, w⟩ A := ⟨1, 1, hm, hu, hw, by simp, by simp, by simp⟩
  obtain ⟨h1, h2⟩ := h.smithLoop hA hrc 0 (Nat.zero_le _) hI (fun i j hij => by omega)
  unfold BezoutOps.smith
  rw [hm.rows, hm.cols, eu, ew]
  simp only [Option.bind_eq_bind, Option.bind_some]
  constructor
  · intro res e
    rw [Option.bind_eq_some_iff] at e
    obtain ⟨⟨st', k⟩, e1, e2⟩ := e
    simp only [Option.some.injEq] at e2
    subst e2
    obtain ⟨hk, E, F, ⟨U, V, hV⟩, -, -, w4, w5, w6⟩ := h1 st' k e1
    exact ⟨hk, U, _, V, hV.u, hV.m, hV.v, hV.mul, hV.detU, hV.detV, fun i j hij => w4 i j (.inl i.2) hij,
      fun i j hij => w5 i j (Nat.zero_le _) hij, fun i j a b hij ha hb => w6 i j (Nat.zero_le _) hij a b ha hb⟩
  · intro hr
    obtain ⟨st', e⟩ := h2 (by omega)
    rw [e]
    exact ⟨_, rfl⟩

end

end Verif.Rings
