import Verif.Proofs.SmithMath
import Mathlib.RingTheory.UniqueFactorizationDomain.Basic

/-!
# Clearing the first row and the first column
-/

namespace Verif.Rings

section Flip
variable {α R : Type}

/-- exchange rows and columns -/
def SState.flip (st : SState α) : SState α := ⟨st.m.transposed, st.v.transposed, st.u.transposed⟩

theorem SState.flip_flip (st : SState α) : st.flip.flip = st := by
  cases st
  simp [SState.flip, Mat.transposed_transposed]

theorem Mat.transposed_get (m : Mat α) (i j : Nat) : m.transposed.get i j = m.get j i := by
  obtain ⟨d1, d2, t, fr, fc, e⟩ := m
  cases t
  all_goals
    simp only [Mat.get, Mat.at, Mat.transposed, Mat.rows, Mat.cols, Mat.rcToIdx, Bool.not_true, Bool.not_false, if_true, if_false,
      Bool.false_eq_true]
    split <;> split <;> rfl

theorem DomainOps.smithCol_flip (S : DomainOps α) (op : ElemOp α) (st : SState α) :
    S.smithCol op st = (S.smithRow op st.flip).map SState.flip := by
  have key : ∀ m : Mat α, S.colOp op m = (S.rowOp op m.transposed).map Mat.transposed := by
    intro m
    unfold DomainOps.colOp DomainOps.rowOp
    cases S.elemOk op with
    | none => rfl
    | some b => cases b <;> rfl
  unfold DomainOps.smithCol DomainOps.smithRow
  rw [key, key]
  change (Option.map _ (S.rowOp op st.m.transposed)).bind _ = _
  cases h1 : S.rowOp op st.m.transposed with
  | none => simp [SState.flip, h1]
  | some m =>
    cases h2 : S.rowOp op st.v.transposed with
    | none => simp [SState.flip, h1, h2]
    | some m' => simp [SState.flip, h1, h2, Mat.transposed_transposed]

theorem BezoutOps.smithRowEntry_flip (S : BezoutOps α) (n : Nat) (st : SState α × Bool) (k : Nat) :
    S.smithRowEntry n st k = (S.smithColEntry n (st.1.flip, st.2) k).map fun t => (t.1.flip, t.2) := by
  unfold BezoutOps.smithRowEntry BezoutOps.smithColEntry
  have e1 : st.1.flip.m.get n n = st.1.m.get n n := Mat.transposed_get _ _ _
  have e2 : st.1.flip.m.get k n = st.1.m.get n k := Mat.transposed_get _ _ _
  simp only [e1, e2, DomainOps.smithCol_flip, Option.bind_eq_bind]
  cases st.1.m.get n n with
  | none => rfl
  | some a =>
    cases st.1.m.get n k with
    | none => rfl
    | some b =>
      simp only [Option.bind_some]
      cases S.smithClearOp n k a b with
      | none => rfl
      | some od =>
        simp only [Option.bind_some]
        cases S.smithRow od.1 st.1.flip with
        | none => rfl
        | some t => rfl

theorem BezoutOps.smithClearRow_flip (S : BezoutOps α) (n k : Nat) (st : SState α) :
    S.smithClearRow n k st = (S.smithClearCol n k st.flip).map fun t => (t.1.flip, t.2) := by
  unfold BezoutOps.smithClearRow BezoutOps.smithClearCol
  suffices hs : ∀ (l : List Nat) (st : SState α) (b : Bool), l.foldlM (S.smithRowEntry n) (st, b) =
      (l.foldlM (S.smithColEntry n) (st.flip, b)).map fun t => (t.1.flip, t.2) from hs _ _ _
  intro l
  induction l with
  | nil => intro st b; simp [SState.flip_flip]
  | cons x l ih =>
    intro st b
    rw [List.foldlM_cons, List.foldlM_cons, BezoutOps.smithRowEntry_flip]
    cases S.smithColEntry n (st.flip, b) x with
    | none => rfl
    | some t =>
      simp only [Option.map_some, Option.bind_eq_bind, Option.bind_some]
      rw [ih, SState.flip_flip]

theorem SHas.flip [CommRing R] {v : α → R} {r c : Nat} {A H : Matrix (Fin r) (Fin c) R} {st : SState α} (h : SHas v A st H) :
    SHas v A.transpose st.flip H.transpose := by
  obtain ⟨U, V, h⟩ := h
  refine ⟨V.transpose, U.transpose, h.m.transposed, h.v.transposed, h.u.transposed, ?_, ?_, ?_⟩
  · rw [h.mul, Matrix.transpose_mul, Matrix.transpose_mul, Matrix.mul_assoc]
  · rw [Matrix.det_transpose]; exact h.detV
  · rw [Matrix.det_transpose]; exact h.detU

end Flip

section
variable {α R : Type} [CommRing R] {S : BezoutOps α} {v : α → R} (h : S.Models v)
include h

/-- the operation that clears one entry -/
theorem BezoutOps.Models.smithClearOp (n k : Nat) (a b : α) (ha : v a ≠ 0) :
    (∃ x, S.smithClearOp n k a b = some (.addRowMul k n x, true) ∧ v b + v x * v a = 0) ∨
    (∃ x y z w, S.smithClearOp n k a b = some (.twoInv n k x y z w, false) ∧ v x * v w - v y * v z = 1 ∧ v z * v a + v w * v b = 0 ∧
      v x * v a + v y * v b ≠ 0 ∧ S.IsFav v (v x * v a + v y * v b) ∧ v x * v a + v y * v b ∣ v a ∧ ¬ v a ∣ v x * v a + v y * v b) := by
  have hD := h.toGcd.toFav.toDomain
  unfold BezoutOps.smithClearOp
  by_cases hab : v a ∣ v b
  · left
    obtain ⟨q, e, hq⟩ := hD.div_ok b a ha hab
    refine ⟨S.neg q, by rw [e]; rfl, ?_⟩
    rw [hD.toRing.neg, hq]
    ring
  · right
    rw [hD.div_not b a ha hab]
    obtain ⟨x, y, z, w, e, h1, h2, h3, h4⟩ := h.clearOp n k a b (fun hh => ha hh.1)
    have hga : v w * (v x * v a + v y * v b) = v a := by
      have : v w * (v x * v a + v y * v b) = v a * (v x * v w - v y * v z) + v y * (v z * v a + v w * v b) := by ring
      rw [this, h1, h2]; ring
    have hgb : -v z * (v x * v a + v y * v b) = v b := by
      have : -v z * (v x * v a + v y * v b) = v b * (v x * v w - v y * v z) - v x * (v z * v a + v w * v b) := by ring
      rw [this, h1, h2]; ring
    refine ⟨x, y, z, w, ?_, h1, h2, h3, h4, ⟨v w, by rw [mul_comm, hga]⟩, fun hd => hab ?_⟩
    · change (S.smithMatch n k a b (.error .notDivisible)) = _
      unfold BezoutOps.smithMatch
      rw [e]
      rfl
    · exact hd.trans ⟨-v z, by rw [mul_comm, hgb]⟩

theorem BezoutOps.Models.smithColLoop {r c : Nat} {A : Matrix (Fin r) (Fin c) R} (n : Fin r) (n' : Fin c) (hnn : (n : Nat) = n') (k : Nat)
    (hk : (n : Nat) < k) (hkr : k ≤ r) {st : SState α} {H : Matrix (Fin r) (Fin c) R} (hI : SHas v A st H) (b : Bool)
    (hnz : H n n' ≠ 0) (hfav : S.IsFav v (H n n')) (hz : ∀ i : Fin r, (n : Nat) < i → (i : Nat) < k → H i n' = 0) :
    ∃ st' b' E, (rangeFrom k r).foldlM (S.smithColEntry n) (st, b) = some (st', b') ∧ SHas v A st' (E * H) ∧ GE n E ∧
      (E * H) n n' ≠ 0 ∧ S.IsFav v ((E * H) n n') ∧ (∀ i : Fin r, (n : Nat) < i → (E * H) i n' = 0) ∧ (E * H) n n' ∣ H n n' ∧
      (b' = true → b = true ∧ ∀ j, (E * H) n j = H n j) ∧ (b' = false → b = false ∨ ¬ H n n' ∣ (E * H) n n') := by
  have hD := h.toGcd.toFav.toDomain
  obtain ⟨d, hd⟩ : ∃ d, r - k = d := ⟨_, rfl⟩
  induction d generalizing k st H b with
  | zero =>
    refine ⟨st, b, 1, by rw [rangeFrom_self (by omega)]; rfl, by rw [Matrix.one_mul]; exact hI, GE.id _, ?_, ?_, ?_, ?_, ?_, ?_⟩
    all_goals rw [Matrix.one_mul]
    · exact hnz
    · exact hfav
    · exact fun i hi => hz i hi (by omega)
    · exact fun hb => ⟨hb, fun _ => rfl⟩
    · exact fun hb => .inl hb
  | succ d ih =>
    have hlt : k < r := by omega
    rw [rangeFrom_cons hlt, List.foldlM_cons]
    obtain ⟨U, V, hV⟩ := hI
    obtain ⟨a, ea, ha⟩ := hV.m.get n n'
    obtain ⟨x, ex, hx⟩ := hV.m.get ⟨k, hlt⟩ n'
    have hI : SHas v A st H := ⟨U, V, hV⟩
    have ea' : st.m.get n n = some a := by have := ea; rw [← hnn] at this; exact this
    have ex' : st.m.get k n = some x := by have := ex; rw [← hnn] at this; exact this
    have hnk : n ≠ ⟨k, hlt⟩ := by rw [Ne, Fin.ext_iff]; simp; omega
    -- one step with operation `op`
    have step : ∀ (op : ElemOp α) (f : Bool), S.smithClearOp n k a x = some (op, f) → op.Valid v r → op.From n →
        op.act v H n n' ≠ 0 → S.IsFav v (op.act v H n n') → (∀ i : Fin r, (n : Nat) < i → (i : Nat) < k + 1 → op.act v H i n' = 0) →
        op.act v H n n' ∣ H n n' → (f = true → ∀ j, op.act v H n j = H n j) → (f = false → ¬ H n n' ∣ op.act v H n n') →
        ∃ st' b' E, ((S.smithColEntry n (st, b) k).bind fun s => (rangeFrom (k + 1) r).foldlM (S.smithColEntry n) s) = some (st', b') ∧
          SHas v A st' (E * H) ∧ GE n E ∧
          (E * H) n n' ≠ 0 ∧ S.IsFav v ((E * H) n n') ∧ (∀ i : Fin r, (n : Nat) < i → (E * H) i n' = 0) ∧ (E * H) n n' ∣ H n n' ∧
          (b' = true → b = true ∧ ∀ j, (E * H) n j = H n j) ∧ (b' = false → b = false ∨ ¬ H n n' ∣ (E * H) n n') := by
      intro op f eop hval hfrom s1 s2 s3 s4 s5 s6
      obtain ⟨st1, e1, hI1⟩ := hD.smithRow hI hval
      obtain ⟨st', b', E, e2, t1, t2, t3, t4, t5, t6, t7, t8⟩ := ih (k + 1) (by omega) (by omega) hI1 (b && f) s1 s2 s3 (by omega)
      rw [ElemOp.act_eq_mul, ← Matrix.mul_assoc] at t1 t3 t4 t5 t6 t7 t8
      refine ⟨st', b', E * op.act v 1, ?_, t1, t2.mul (hD.act_ge hval hfrom), t3, t4, t5, ?_, ?_, ?_⟩
      · have : S.smithColEntry n (st, b) k = some (st1, b && f) := by
          unfold BezoutOps.smithColEntry
          simp only [ea', ex', eop, e1, Option.bind_eq_bind, Option.bind_some]
        rw [this, Option.bind_some]
        exact e2
      · rw [← ElemOp.act_eq_mul] at t6
        exact t6.trans s4
      · intro hb
        obtain ⟨hbf, hj⟩ := t7 hb
        rw [Bool.and_eq_true] at hbf
        refine ⟨hbf.1, fun j => ?_⟩
        rw [hj j, ← ElemOp.act_eq_mul, s5 hbf.2 j]
      · intro hb
        rw [← ElemOp.act_eq_mul] at t6
        rcases t8 hb with h1 | h1
        · rw [Bool.and_eq_false_iff] at h1
          rcases h1 with h1 | h1
          · exact .inl h1
          · exact .inr fun hd => s6 h1 (hd.trans t6)
        · refine .inr fun hd => h1 ?_
          rw [← ElemOp.act_eq_mul]
          exact s4.trans hd
    change ∃ st' b' E, ((S.smithColEntry n (st, b) k).bind fun s => (rangeFrom (k + 1) r).foldlM (S.smithColEntry n) s) = _ ∧ _
    rcases h.smithClearOp n k a x (by rw [ha]; exact hnz) with ⟨q, eop, hq⟩ | ⟨p, q, s, t, eop, h1, h2, h3, h4, h5, h6⟩
    · have hact : ∀ (i : Fin r) (j : Fin c), (ElemOp.addRowMul k (n : Nat) q).act v H i j =
          if i = n then H n j else if i = ⟨k, hlt⟩ then H ⟨k, hlt⟩ j + v q * H n j else H i j := by
        intro i j
        unfold ElemOp.act
        dsimp only
        rw [dif_pos ⟨hlt, n.2⟩, rowTwo_apply]
        by_cases hi : i = n
        · rw [if_pos hi, if_pos hi]; ring
        · rw [if_neg hi, if_neg hi]
          by_cases hi' : i = ⟨k, hlt⟩
          · rw [if_pos hi', if_pos hi']; ring
          · rw [if_neg hi', if_neg hi']
      have hrow : ∀ j, (ElemOp.addRowMul k (n : Nat) q).act v H n j = H n j := fun j => by rw [hact, if_pos rfl]
      refine step _ true eop ⟨hlt, n.2, by omega⟩ ⟨by omega, le_refl _⟩ ?_ ?_ ?_ ?_ (fun _ => hrow) (by simp)
      · rw [hrow]; exact hnz
      · rw [hrow]; exact hfav
      · intro i hi1 hi2
        rw [hact, if_neg (by rw [Fin.ext_iff]; omega)]
        by_cases hik : (i : Nat) = k
        · rw [if_pos (Fin.ext hik), ← ha, ← hx]; exact hq
        · rw [if_neg (by rw [Fin.ext_iff]; exact hik)]
          exact hz i hi1 (by omega)
      · rw [hrow]
    · have hact : ∀ (i : Fin r) (j : Fin c), (ElemOp.twoInv (n : Nat) k p q s t).act v H i j =
          if i = ⟨k, hlt⟩ then v s * H n j + v t * H ⟨k, hlt⟩ j else if i = n then v p * H n j + v q * H ⟨k, hlt⟩ j else H i j := by
        intro i j
        unfold ElemOp.act
        dsimp only
        rw [dif_pos ⟨n.2, hlt⟩, rowTwo_apply]
      have hpiv : (ElemOp.twoInv (n : Nat) k p q s t).act v H n n' = v p * v a + v q * v x := by
        rw [hact, if_neg hnk, if_pos rfl, ha, hx]
      refine step _ false eop ⟨n.2, hlt, by omega, by rw [h1]; exact isUnit_one⟩ ⟨le_refl _, by omega⟩ ?_ ?_ ?_ ?_ (by simp) (fun _ => ?_)
      · rw [hpiv]; exact h3
      · rw [hpiv]; exact h4
      · intro i hi1 hi2
        rw [hact]
        by_cases hik : (i : Nat) = k
        · rw [if_pos (Fin.ext hik), ← ha, ← hx, h2]
        · rw [if_neg (by rw [Fin.ext_iff]; exact hik), if_neg (by rw [Fin.ext_iff]; omega)]
          exact hz i hi1 (by omega)
      · rw [hpiv, ← ha]; exact h5
      · rw [hpiv, ← ha]; exact h6

theorem BezoutOps.Models.smithClearCol {r c : Nat} {A : Matrix (Fin r) (Fin c) R} (n : Fin r) (n' : Fin c) (hnn : (n : Nat) = n')
    {st : SState α} {H : Matrix (Fin r) (Fin c) R} (hI : SHas v A st H) (hnz : H n n' ≠ 0) (hfav : S.IsFav v (H n n')) :
    ∃ st' b' E, S.smithClearCol n r st = some (st', b') ∧ SHas v A st' (E * H) ∧ GE n E ∧
      (E * H) n n' ≠ 0 ∧ S.IsFav v ((E * H) n n') ∧ (∀ i : Fin r, (n : Nat) < i → (E * H) i n' = 0) ∧ (E * H) n n' ∣ H n n' ∧
      (b' = true → ∀ j, (E * H) n j = H n j) ∧ (b' = false → ¬ H n n' ∣ (E * H) n n') := by
  obtain ⟨st', b', E, e, h1, h2, h3, h4, h5, h6, h7, h8⟩ :=
    h.smithColLoop n n' hnn (n + 1) (by omega) n.2 hI true hnz hfav (fun i h1 h2 => by omega)
  exact ⟨st', b', E, e, h1, h2, h3, h4, h5, h6, fun hb => (h7 hb).2, fun hb => (h8 hb).resolve_left (by simp)⟩

theorem BezoutOps.Models.smithClearRow {r c : Nat} {A : Matrix (Fin r) (Fin c) R} (n : Fin r) (n' : Fin c) (hnn : (n : Nat) = n')
    {st : SState α} {H : Matrix (Fin r) (Fin c) R} (hI : SHas v A st H) (hnz : H n n' ≠ 0) (hfav : S.IsFav v (H n n')) :
    ∃ st' b' F, S.smithClearRow n c st = some (st', b') ∧ SHas v A st' (H * F) ∧ GE n F ∧
      (H * F) n n' ≠ 0 ∧ S.IsFav v ((H * F) n n') ∧ (∀ j : Fin c, (n : Nat) < j → (H * F) n j = 0) ∧ (H * F) n n' ∣ H n n' ∧
      (b' = true → ∀ i, (H * F) i n' = H i n') ∧ (b' = false → ¬ H n n' ∣ (H * F) n n') := by
  obtain ⟨st', b', E, e, h1, h2, h3, h4, h5, h6, h7, h8⟩ :=
    h.smithClearCol n' n hnn.symm hI.flip hnz hfav
  have hE : (E * H.transpose).transpose = H * E.transpose := by rw [Matrix.transpose_mul, Matrix.transpose_transpose]
  have hE' : ∀ i j, (H * E.transpose) i j = (E * H.transpose) j i := fun i j => by rw [← hE]; rfl
  refine ⟨st'.flip, b', E.transpose, ?_, ?_, by rw [hnn]; exact h2.transpose, ?_, ?_, ?_, ?_, ?_, ?_⟩
  · rw [BezoutOps.smithClearRow_flip, hnn, e]; rfl
  · have := h1.flip
    rw [Matrix.transpose_transpose, hE] at this
    exact this
  · rw [hE']; exact h3
  · rw [hE']; exact h4
  · intro j hj; rw [hE']; exact h5 j (by omega)
  · rw [hE']; exact h6
  · intro hb i; rw [hE']; exact h7 hb i
  · intro hb; rw [hE']; exact h8 hb

/-- the loop that clears the first row and the first column ends and does what it says -/
theorem BezoutOps.Models.smithZero [WfDvdMonoid R] {r c : Nat} {A : Matrix (Fin r) (Fin c) R} (n : Fin r) (n' : Fin c) (hnn : (n : Nat) = n')
    (first : Bool) {st : SState α} {H : Matrix (Fin r) (Fin c) R} (hI : SHas v A st H) (hnz : H n n' ≠ 0) (hfav : S.IsFav v (H n n'))
    (hcol : first = false → ∀ i : Fin r, (n : Nat) < i → H i n' = 0) :
    ∃ st' E F, S.smithZero n r c first st = some st' ∧ SHas v A st' (E * H * F) ∧ GE n E ∧ GE n F ∧
      (E * H * F) n n' ≠ 0 ∧ S.IsFav v ((E * H * F) n n') ∧ (∀ i : Fin r, (n : Nat) < i → (E * H * F) i n' = 0) ∧
      (∀ j : Fin c, (n : Nat) < j → (E * H * F) n j = 0) := by
  haveI := h.toGcd.toFav.toDomain.domain
  obtain ⟨p, hp⟩ : ∃ p, H n n' = p := ⟨_, rfl⟩
  have wf : WellFounded (DvdNotUnit : R → R → Prop) := wellFounded_dvdNotUnit
  induction p using wf.induction generalizing st H first with
  | _ p ih =>
  rw [BezoutOps.smithZero]
  obtain ⟨st1, b1, F1, e1, q1, q2, q3, q4, q5, q6, q7, q8⟩ := h.smithClearRow n n' hnn hI hnz hfav
  rw [e1]
  simp only [Option.bind_eq_bind, Option.bind_some]
  by_cases hb : (b1 && !first) = true
  · rw [if_pos hb]
    rw [Bool.and_eq_true, Bool.not_eq_true'] at hb
    refine ⟨st1, 1, F1, rfl, by rw [Matrix.one_mul]; exact q1, GE.id _, q2, ?_, ?_, ?_, ?_⟩
    all_goals rw [Matrix.one_mul]
    · exact q3
    · exact q4
    · intro i hi
      rw [q7 hb.1 i]
      exact hcol hb.2 i hi
    · exact q5
  · rw [if_neg hb]
    obtain ⟨st2, b2, E1, e2, t1, t2, t3, t4, t5, t6, t7, t8⟩ := h.smithClearCol n n' hnn q1 q3 q4
    rw [e2]
    simp only [Option.bind_some]
    rw [← Matrix.mul_assoc] at t1 t3 t4 t5 t6 t7 t8
    cases b2 with
    | true =>
      rw [if_pos rfl]
      refine ⟨st2, E1, F1, rfl, t1, t2, q2, t3, t4, t5, ?_⟩
      intro j hj
      rw [t7 rfl j]
      exact q5 j hj
    | false =>
      rw [if_neg (by simp)]
      have hlt : DvdNotUnit ((E1 * H * F1) n n') p := by
        rw [← hp]
        refine dvdNotUnit_of_dvd_of_not_dvd (t6.trans q6) fun hd => t8 rfl ?_
        exact q6.trans hd
      obtain ⟨st', E, F, e3, w1, w2, w3, w4, w5, w6, w7⟩ := ih _ hlt false t1 t3 t4 (fun _ => t5) rfl
      have hEF : E * (E1 * H * F1) * F = E * E1 * H * (F1 * F) := by simp only [Matrix.mul_assoc]
      rw [hEF] at w1 w4 w5 w6 w7
      exact ⟨st', E * E1, F1 * F, e3, w1, w2.mul t2, q2.mul w3, w4, w5, w6, w7⟩

end

end Verif.Rings
