import Verif.Proofs.ElemOps

/-!
# The row Hermite normal form algorithm
-/

namespace Verif.Rings

theorem rangeFrom_self {a b : Nat} (h : b ≤ a) : rangeFrom a b = [] := by
  unfold rangeFrom
  rw [Nat.sub_eq_zero_of_le h]
  rfl

theorem rangeFrom_cons {a b : Nat} (h : a < b) : rangeFrom a b = a :: rangeFrom (a + 1) b := by
  unfold rangeFrom
  obtain ⟨k, hk⟩ : ∃ k, b - a = k + 1 := ⟨b - a - 1, by omega⟩
  rw [hk, List.range'_succ, show b - (a + 1) = k by omega]

theorem mem_rangeFrom {a b x : Nat} : x ∈ rangeFrom a b ↔ a ≤ x ∧ x < b := by
  unfold rangeFrom
  rw [List.mem_range'_1]
  omega

section
variable {α R : Type} [CommRing R]

theorem SemiRingOps.Models.nonzeroAt {S : SemiRingOps α} {v : α → R} (h : S.Models v) {m : Mat α} {r c : Nat}
    {A : Matrix (Fin r) (Fin c) R} (hm : m.Denotes v A) (i : Fin r) (j : Fin c) :
    ∃ b, S.nonzeroAt m i j = some b ∧ (b = true ↔ A i j ≠ 0) := by
  obtain ⟨x, hx, hv⟩ := hm.get i j
  refine ⟨!S.equal x S.zero, by unfold SemiRingOps.nonzeroAt; rw [hx]; rfl, ?_⟩
  rw [Bool.not_eq_true', ← Bool.not_eq_true, h.equal, h.zero, hv]

/-- the search for a non-zero entry in a column, from row `pr` on -/
theorem SemiRingOps.Models.anyNonzero {S : SemiRingOps α} {v : α → R} (h : S.Models v) {m : Mat α} {r c : Nat}
    {A : Matrix (Fin r) (Fin c) R} (hm : m.Denotes v A) (pr : Nat) (j : Fin c) :
    ∃ b, ((rangeFrom pr r).anyM fun i => S.nonzeroAt m i j) = some b ∧ (b = true ↔ ∃ i : Fin r, pr ≤ (i : Nat) ∧ A i j ≠ 0) := by
  obtain ⟨b, hb, hb'⟩ := anyM_some (rangeFrom pr r) (p := fun i => S.nonzeroAt m i j)
    (P := fun i => ∃ hi : i < r, A ⟨i, hi⟩ j ≠ 0) (by
      intro i hi
      obtain ⟨b, e, hb⟩ := h.nonzeroAt hm ⟨i, (mem_rangeFrom.1 hi).2⟩ j
      exact ⟨b, e, by rw [hb]; exact ⟨fun h => ⟨_, h⟩, fun h => h.2⟩⟩)
  refine ⟨b, hb, hb'.trans ?_⟩
  constructor
  · rintro ⟨i, hi, hlt, hne⟩
    exact ⟨⟨i, hlt⟩, (mem_rangeFrom.1 hi).1, hne⟩
  · rintro ⟨i, hi, hne⟩
    exact ⟨i, mem_rangeFrom.2 ⟨hi, i.2⟩, i.2, hne⟩

theorem SemiRingOps.Models.nextPivot {S : SemiRingOps α} {v : α → R} (h : S.Models v) {m : Mat α} {r c : Nat}
    {A : Matrix (Fin r) (Fin c) R} (hm : m.Denotes v A) (pr pc : Nat) (hpc : pc ≤ c) :
    (S.nextPivot m pr pc = some none ∧ ∀ (i : Fin r) (j : Fin c), pr ≤ (i : Nat) → pc ≤ (j : Nat) → A i j = 0) ∨
    ∃ p : Fin c, S.nextPivot m pr pc = some (some (p : Nat)) ∧ pc ≤ (p : Nat) ∧ (∃ i : Fin r, pr ≤ (i : Nat) ∧ A i p ≠ 0) ∧
      ∀ (i : Fin r) (j : Fin c), pr ≤ (i : Nat) → pc ≤ (j : Nat) → (j : Nat) < p → A i j = 0 := by
  obtain ⟨k, hk⟩ : ∃ k, c - pc = k := ⟨_, rfl⟩
  induction k generalizing pc with
  | zero =>
    refine .inl ⟨?_, fun i j _ hj => absurd j.2 (by omega)⟩
    unfold SemiRingOps.nextPivot
    rw [if_pos (by rw [hm.cols]; omega)]
  | succ k ih =>
    have hlt : pc < c := by omega
    obtain ⟨b, e, hb⟩ := h.anyNonzero hm pr ⟨pc, hlt⟩
    have e' : ((rangeFrom pr m.rows).anyM fun i => S.nonzeroAt m i pc) = some b := by rw [hm.rows]; exact e
    unfold SemiRingOps.nextPivot
    rw [if_neg (by rw [hm.cols]; omega), if_neg (by rw [hm.cols]; omega), e']
    cases b with
    | true =>
      refine .inr ⟨⟨pc, hlt⟩, rfl, le_refl _, hb.1 rfl, ?_⟩
      intro i j _ h1 h2
      exact absurd h2 (by simpa using h1)
    | false =>
      have hz : ∀ i : Fin r, pr ≤ (i : Nat) → A i ⟨pc, hlt⟩ = 0 := by
        intro i hi
        by_contra hne
        exact absurd (hb.2 ⟨i, hi, hne⟩) (by simp)
      have hz' : ∀ (i : Fin r) (j : Fin c), pr ≤ (i : Nat) → (j : Nat) = pc → A i j = 0 := by
        intro i j hi hj
        have : j = ⟨pc, hlt⟩ := Fin.ext hj
        rw [this]; exact hz i hi
      clear hb e e'
      rcases ih (pc + 1) (by clear hz hz'; omega) (by clear hz hz'; omega) with ⟨e1, h1⟩ | ⟨p, e1, hp, hnz, h1⟩
      · refine .inl ⟨e1, fun i j hi hj => ?_⟩
        by_cases hj' : (j : Nat) = pc
        · exact hz' i j hi hj'
        · exact h1 i j hi (by omega)
      · refine .inr ⟨p, e1, by omega, hnz, fun i j hi hj hjp => ?_⟩
        by_cases hj' : (j : Nat) = pc
        · exact hz' i j hi hj'
        · exact h1 i j hi (by omega) hjp

/-- The invariant of the algorithm: the stored matrices denote `H` and `U` with `H = U A`, and `det` is the unit `det U`. -/
structure HInv (v : α → R) {r c : Nat} (A : Matrix (Fin r) (Fin c) R) (st : HState α) (H : Matrix (Fin r) (Fin c) R)
    (U : Matrix (Fin r) (Fin r) R) : Prop where
  m : st.m.Denotes v H
  u : st.u.Denotes v U
  mul : H = U * A
  det : U.det = v st.det
  unit : IsUnit (v st.det)

theorem DomainOps.Models.hermiteApply {S : DomainOps α} {v : α → R} (h : S.Models v) {r c : Nat} {A H : Matrix (Fin r) (Fin c) R}
    {U : Matrix (Fin r) (Fin r) R} {st : HState α} (hI : HInv v A st H U) {op : ElemOp α} (ho : op.Valid v r) :
    ∃ st', S.hermiteApply op st = some st' ∧ HInv v A st' (op.act v H) (op.act v U) := by
  obtain ⟨m', e1, h1⟩ := h.rowOp ho hI.m
  obtain ⟨u', e2, h2⟩ := h.rowOp ho hI.u
  refine ⟨⟨m', u', S.mul st.det (S.elemDet op)⟩, ?_, h1, h2, ?_, ?_, ?_⟩
  · unfold DomainOps.hermiteApply
    rw [e1]
    change (S.rowOp op st.u).bind _ = _
    rw [e2]
    rfl
  · rw [hI.mul, ElemOp.act_mul]
  · change _ = v (S.mul _ _)
    rw [h.det_act ho, hI.det, h.toRing.toSemi.mul, mul_comm]
  · change IsUnit (v (S.mul _ _))
    rw [h.toRing.toSemi.mul]
    exact hI.unit.mul (h.isUnit_elemDet ho)

end

section
variable {α R : Type} [CommRing R] {S : BezoutOps α} {v : α → R} (h : S.Models v)
include h

theorem BezoutOps.Models.clearOp (pr r : Nat) (a b : α) (hab : ¬ (v a = 0 ∧ v b = 0)) :
    ∃ x y c d, S.clearOp pr r a b = some (.twoInv pr r x y c d) ∧ v x * v d - v y * v c = 1 ∧ v c * v a + v d * v b = 0 ∧
      v x * v a + v y * v b ≠ 0 ∧ S.IsFav v (v x * v a + v y * v b) := by
  haveI := h.toGcd.toFav.toDomain.domain
  obtain ⟨g, x, y, e, hg, hgcd, hfav⟩ := h.xgcd a b
  have hD := h.toGcd.toFav.toDomain
  have hS := hD.toRing.toSemi
  rw [isGcdOf_pair] at hgcd
  have hg0 : v g ≠ 0 := by
    intro h0
    rw [h0] at hgcd
    exact hab ⟨zero_dvd_iff.1 hgcd.1, zero_dvd_iff.1 hgcd.2.1⟩
  obtain ⟨bd, eb, hb⟩ := hD.div_unwrap b g hg0 hgcd.2.1
  obtain ⟨ad, ea, ha⟩ := hD.div_unwrap a g hg0 hgcd.1
  refine ⟨x, y, S.neg bd, ad, ?_, ?_, ?_, ?_, ?_⟩
  · unfold BezoutOps.clearOp
    rw [e]
    have hassert : S.equal (S.add (S.mul x a) (S.mul y b)) g = true := by
      rw [hS.equal, hS.add, hS.mul, hS.mul, hg]
    change (assertThat (S.equal (S.add (S.mul x a) (S.mul y b)) g)).bind (fun _ => (unwrapDiv (S.div b g)).bind fun bd =>
      (unwrapDiv (S.div a g)).bind fun ad => some (ElemOp.twoInv pr r x y (S.neg bd) ad)) = _
    rw [hassert, eb, ea]
    rfl
  · rw [hD.toRing.neg]
    apply mul_right_cancel₀ hg0
    have : (v x * v ad - v y * -v bd) * v g = v x * (v ad * v g) + v y * (v bd * v g) := by ring
    rw [this, ← ha, ← hb, one_mul, hg]
  · rw [hD.toRing.neg, ha, hb]
    ring
  · rw [← hg]; exact hg0
  · rw [← hg]; exact hfav

/-- what the clearing of the rows below `pr` preserves and achieves -/
theorem BezoutOps.Models.hermiteRows {r c : Nat} {A : Matrix (Fin r) (Fin c) R} (pr : Fin r) (pc : Fin c) (k : Nat)
    (hk : (pr : Nat) < k) (hkr : k ≤ r) {st : HState α} {H : Matrix (Fin r) (Fin c) R} {U : Matrix (Fin r) (Fin r) R} (hI : HInv v A st H U)
    (hnz : ∃ i : Fin r, (pr : Nat) ≤ i ∧ H i pc ≠ 0) (hz : ∀ i : Fin r, (pr : Nat) < i → (i : Nat) < k → H i pc = 0)
    (hfav : k = pr + 1 ∧ k < r ∨ S.IsFav v (H pr pc)) :
    ∃ st' H' U', (rangeFrom k r).foldlM (S.hermiteRow pr pc) st = some st' ∧ HInv v A st' H' U' ∧
      (∀ (i : Fin r) (j : Fin c), (i : Nat) < pr → H' i j = H i j) ∧
      (∀ j : Fin c, (∀ i : Fin r, (pr : Nat) ≤ i → H i j = 0) → ∀ i : Fin r, (pr : Nat) ≤ i → H' i j = 0) ∧
      H' pr pc ≠ 0 ∧ S.IsFav v (H' pr pc) ∧ ∀ i : Fin r, (pr : Nat) < i → H' i pc = 0 := by
  have hD := h.toGcd.toFav.toDomain
  have hS := hD.toRing.toSemi
  obtain ⟨d, hd⟩ : ∃ d, r - k = d := ⟨_, rfl⟩
  induction d generalizing k st H U with
  | zero =>
    have hkr' : k = r := by omega
    refine ⟨st, H, U, by rw [rangeFrom_self (by omega)]; rfl, hI, fun _ _ _ => rfl, fun j hj => hj, ?_, ?_, ?_⟩
    · obtain ⟨i, hi, hne⟩ := hnz
      rcases Nat.lt_or_eq_of_le hi with h1 | h1
      · exact absurd (hz i h1 (by omega)) hne
      · rw [Fin.ext h1]; exact hne
    · rcases hfav with h1 | h1
      · omega
      · exact h1
    · exact fun i hi => hz i hi (by omega)
  | succ d ih =>
    have hlt : k < r := by omega
    rw [rangeFrom_cons hlt, List.foldlM_cons]
    obtain ⟨a, ea, ha⟩ := hI.m.get pr pc
    obtain ⟨b, eb, hb⟩ := hI.m.get ⟨k, hlt⟩ pc
    have hrow : S.hermiteRow pr pc st k =
        if !S.equal a S.zero || !S.equal b S.zero then S.hermiteClear pr k a b st else some st := by
      unfold BezoutOps.hermiteRow
      rw [ea, Option.bind_some]
      change (st.m.get (⟨k, hlt⟩ : Fin r) pc).bind _ = _
      rw [eb, Option.bind_some]
    rw [hrow]
    by_cases hab : v a = 0 ∧ v b = 0
    · rw [if_neg (by
        rw [(hS.equal a S.zero).2 (by rw [hab.1, hS.zero]), (hS.equal b S.zero).2 (by rw [hab.2, hS.zero])]
        simp)]
      change ∃ st' H' U', (rangeFrom (k + 1) r).foldlM (S.hermiteRow pr pc) st = _ ∧ _
      apply ih (k + 1) (by omega) (by omega) hI hnz _ _ (by omega)
      · intro i h1 h2
        by_cases hik : (i : Nat) = k
        · have : i = ⟨k, hlt⟩ := Fin.ext hik
          rw [this, ← hb, hab.2]
        · exact hz i h1 (by omega)
      · right
        rw [← ha, hab.1]
        exact h.toGcd.toFav.isFav_zero
    · rw [if_pos (by
        rw [Bool.or_eq_true, Bool.not_eq_true', Bool.not_eq_true', ← Bool.not_eq_true, ← Bool.not_eq_true, hS.equal, hS.equal, hS.zero]
        tauto)]
      obtain ⟨x, y, z, w, eop, hdet, hzero, hne, hfv⟩ := h.clearOp pr k a b hab
      have hval : (ElemOp.twoInv (pr : Nat) k x y z w).Valid v r :=
        ⟨pr.2, hlt, by omega, by rw [hdet]; exact isUnit_one⟩
      obtain ⟨st1, e1, hI1⟩ := hD.hermiteApply hI hval
      have hact : ∀ (i : Fin r) (j : Fin c), (ElemOp.twoInv (pr : Nat) k x y z w).act v H i j =
          if i = ⟨k, hlt⟩ then v z * H pr j + v w * H ⟨k, hlt⟩ j else if i = pr then v x * H pr j + v y * H ⟨k, hlt⟩ j else H i j := by
        intro i j
        unfold ElemOp.act
        dsimp only
        rw [dif_pos ⟨pr.2, hlt⟩, rowTwo_apply]
      have hprk : pr ≠ ⟨k, hlt⟩ := by rw [Ne, Fin.ext_iff]; simp; omega
      have hpiv : (ElemOp.twoInv (pr : Nat) k x y z w).act v H pr pc = v x * v a + v y * v b := by
        rw [hact, if_neg hprk, if_pos rfl, ha, hb]
      obtain ⟨st', H', U', e2, hI2, h1, h2, h3, h4, h5⟩ := ih (k + 1) (by omega) (by omega) hI1
        ⟨pr, le_refl _, by rw [hpiv]; exact hne⟩
        (by
          intro i hi1 hi2
          rw [hact]
          by_cases hik : (i : Nat) = k
          · rw [if_pos (Fin.ext hik), ← ha, ← hb, hzero]
          · rw [if_neg (by rw [Fin.ext_iff]; exact hik), if_neg (by rw [Fin.ext_iff]; omega)]
            exact hz i hi1 (by omega))
        (.inr (by rw [hpiv]; exact hfv)) (by omega)
      refine ⟨st', H', U', ?_, hI2, ?_, ?_, h3, h4, h5⟩
      · unfold BezoutOps.hermiteClear
        rw [eop, Option.bind_some, e1]
        exact e2
      · intro i j hi
        rw [h1 i j hi, hact, if_neg (by rw [Fin.ext_iff]; simp; omega), if_neg (by rw [Fin.ext_iff]; omega)]
      · intro j hj
        apply h2 j
        intro i hi
        rw [hact, hj pr (le_refl _), hj ⟨k, hlt⟩ (by simp; omega), hj i hi]
        simp

theorem BezoutOps.Models.hermiteUnit {r c : Nat} {A : Matrix (Fin r) (Fin c) R} (pr : Fin r) (pc : Fin c)
    {st : HState α} {H : Matrix (Fin r) (Fin c) R} {U : Matrix (Fin r) (Fin r) R} (hI : HInv v A st H U)
    (hnz : H pr pc ≠ 0) :
    ∃ st' H' U', S.hermiteUnit pr pc st = some st' ∧ HInv v A st' H' U' ∧
      (∀ (i : Fin r) (j : Fin c), i ≠ pr → H' i j = H i j) ∧
      (∀ j : Fin c, H pr j = 0 → H' pr j = 0) ∧ H' pr pc ≠ 0 ∧ S.IsFav v (H' pr pc) := by
  haveI := h.toGcd.toFav.toDomain.domain
  have hD := h.toGcd.toFav.toDomain
  obtain ⟨x, ex, hx⟩ := hI.m.get pr pc
  obtain ⟨u, w, ef, hu, huw⟩ := h.toGcd.toFav.fav x
  obtain ⟨i, ei, hi⟩ := hD.inv_unwrap u hu
  have hiu : IsUnit (v i) := IsUnit.of_mul_eq_one (v u) hi
  obtain ⟨st1, e1, hI1⟩ := hD.hermiteApply hI (op := .unitMul pr i) ⟨pr.2, hiu⟩
  have hact : ∀ (k : Fin r) (j : Fin c), (ElemOp.unitMul (pr : Nat) i).act v H k j =
      if k = pr then v i * H pr j else H k j := by
    intro k j
    unfold ElemOp.act
    dsimp only
    rw [dif_pos pr.2, rowScale_apply]
  have hpiv : (ElemOp.unitMul (pr : Nat) i).act v H pr pc = v w := by
    rw [hact, if_pos rfl, ← hx, huw, ← mul_assoc, hi, one_mul]
  refine ⟨st1, _, _, ?_, hI1, ?_, ?_, ?_, ?_⟩
  · unfold BezoutOps.hermiteUnit
    rw [ex]
    change (S.factorFavAssoc x).bind _ = _
    rw [ef]
    change (unwrapDiv (S.inv u)).bind _ = _
    rw [ei]
    exact e1
  · intro k j hk
    rw [hact, if_neg hk]
  · intro j hj
    rw [hact, if_pos rfl, hj, mul_zero]
  · rw [hact, if_pos rfl]
    exact mul_ne_zero hiu.ne_zero hnz
  · rw [hpiv]
    obtain ⟨w', e', -, hf⟩ := h.toGcd.toFav.favAssoc x
    unfold FavOps.favAssoc at e'
    rw [ef] at e'
    simp only [Option.map_some, Option.some.injEq] at e'
    rw [e']
    exact hf

theorem BezoutOps.Models.hermiteStep {r c : Nat} {A : Matrix (Fin r) (Fin c) R} (pr : Fin r) (pc : Fin c)
    {st : HState α} {H : Matrix (Fin r) (Fin c) R} {U : Matrix (Fin r) (Fin r) R} (hI : HInv v A st H U)
    (hnz : ∃ i : Fin r, (pr : Nat) ≤ i ∧ H i pc ≠ 0) :
    ∃ st' H' U', S.hermiteStep r pr pc st = some st' ∧ HInv v A st' H' U' ∧
      (∀ (i : Fin r) (j : Fin c), (i : Nat) < pr → H' i j = H i j) ∧
      (∀ j : Fin c, (∀ i : Fin r, (pr : Nat) ≤ i → H i j = 0) → ∀ i : Fin r, (pr : Nat) ≤ i → H' i j = 0) ∧
      H' pr pc ≠ 0 ∧ S.IsFav v (H' pr pc) ∧ ∀ i : Fin r, (pr : Nat) < i → H' i pc = 0 := by
  unfold BezoutOps.hermiteStep
  by_cases hlt : (pr : Nat) + 1 < r
  · rw [if_pos hlt]
    exact h.hermiteRows pr pc (pr + 1) (by omega) (by omega) hI hnz (fun i h1 h2 => by omega) (.inl ⟨rfl, hlt⟩)
  · rw [if_neg hlt]
    obtain ⟨i, hi, hne⟩ := hnz
    have hip : i = pr := Fin.ext (by omega)
    rw [hip] at hne
    obtain ⟨st', H', U', e, hI', h1, h2, h3, h4⟩ := h.hermiteUnit pr pc hI hne
    refine ⟨st', H', U', e, hI', ?_, ?_, h3, h4, fun i hi => by omega⟩
    · intro i j hi
      exact h1 i j (by rw [Ne, Fin.ext_iff]; omega)
    · intro j hj i hi
      have : i = pr := Fin.ext (by omega)
      rw [this]
      exact h2 j (hj pr (le_refl _))

/-- The echelon form reached after `pr` pivots. -/
structure HPart (S : BezoutOps α) (v : α → R) {r c : Nat} (H : Matrix (Fin r) (Fin c) R) (pc : Nat) (pivs : List Nat) : Prop where
  increasing : pivs.Pairwise (· < ·)
  lt : ∀ p ∈ pivs, p < c ∧ p ≤ pc
  pivot : ∀ (i : Fin r) (j : Fin c), pivs[(i : Nat)]? = some (j : Nat) → H i j ≠ 0 ∧ S.IsFav v (H i j)
  left : ∀ (i : Fin r) (j : Fin c) (p : Nat), pivs[(i : Nat)]? = some p → (j : Nat) < p → H i j = 0
  zero : ∀ (i : Fin r) (j : Fin c), pivs.length ≤ (i : Nat) → ((j : Nat) < pc ∨ (j : Nat) ∈ pivs) → H i j = 0

theorem BezoutOps.Models.hermiteLoop {r c : Nat} {A : Matrix (Fin r) (Fin c) R} (pc : Nat) (hpc : pc ≤ c) (pivs : List Nat) (hpr : pivs.length ≤ r)
    {st : HState α} {H : Matrix (Fin r) (Fin c) R} {U : Matrix (Fin r) (Fin r) R} (hI : HInv v A st H U) (hP : HPart S v H pc pivs) :
    ∃ st' H' U' pivs', S.hermiteLoop r pivs.length pc st pivs = some (st', pivs') ∧ HInv v A st' H' U' ∧ IsRowEchelon H' pivs' ∧
      (∀ (i : Fin r) (j : Fin c), pivs'[(i : Nat)]? = some (j : Nat) → S.IsFav v (H' i j)) := by
  have hD := h.toGcd.toFav.toDomain
  have hS := hD.toRing.toSemi
  obtain ⟨d, hd⟩ : ∃ d, r - pivs.length = d := ⟨_, rfl⟩
  induction d generalizing pc pivs st H U with
  | zero =>
    refine ⟨st, H, U, pivs, ?_, hI, ⟨hP.increasing, hpr, fun p hp => (hP.lt p hp).1, fun i j e => (hP.pivot i j e).1, hP.left, ?_⟩,
      fun i j e => (hP.pivot i j e).2⟩
    · unfold BezoutOps.hermiteLoop
      rw [if_neg (by omega)]
    · intro i j hi
      omega
  | succ d ih =>
    have hlt : pivs.length < r := by omega
    unfold BezoutOps.hermiteLoop
    rw [if_pos hlt]
    rcases hS.nextPivot hI.m pivs.length pc hpc with ⟨e1, h1⟩ | ⟨p, e1, hp, hnz, h1⟩
    · refine ⟨st, H, U, pivs, by rw [e1]; rfl, hI,
        ⟨hP.increasing, hpr, fun p hp => (hP.lt p hp).1, fun i j e => (hP.pivot i j e).1, hP.left, ?_⟩,
        fun i j e => (hP.pivot i j e).2⟩
      intro i j hi
      by_cases hj : (j : Nat) < pc
      · exact hP.zero i j hi (.inl hj)
      · exact h1 i j hi (by omega)
    · obtain ⟨st', H', U', e2, hI', k1, k2, k3, k4, k5⟩ := h.hermiteStep ⟨pivs.length, hlt⟩ p hI hnz
      have hpiv : ∀ q ∈ pivs, q < (p : Nat) := by
        intro q hq
        have hq' := hP.lt q hq
        rcases Nat.lt_or_ge q p with h2 | h2
        · exact h2
        · exfalso
          have hqp : (p : Nat) = q := by omega
          obtain ⟨i, hi, hne⟩ := hnz
          exact hne (hP.zero i p hi (.inr (by rw [hqp]; exact hq)))
      have hcheck : S.hermiteCheck r pivs.length p st' = some () := by
        obtain ⟨b, eb, hb⟩ := hS.anyNonzero hI'.m (pivs.length + 1) p
        unfold BezoutOps.hermiteCheck
        have eb' : ((rangeFrom (pivs.length + 1) r).anyM fun i => S.nonzeroAt st'.m i p) = some b := eb
        rw [eb']
        have : b = false := by
          rw [← Bool.not_eq_true, hb]
          rintro ⟨i, hi, hne⟩
          exact hne (k5 i (by simp; omega))
        rw [this]
        rfl
      have hP' : HPart S v H' p (pivs ++ [(p : Nat)]) := by
        have hzero : ∀ (i : Fin r) (j : Fin c), pivs.length ≤ (i : Nat) → (j : Nat) < p → H' i j = 0 := by
          intro i j hi hj
          apply k2 j _ i hi
          intro i' hi'
          by_cases hj' : (j : Nat) < pc
          · exact hP.zero i' j hi' (.inl hj')
          · exact h1 i' j hi' (by omega) hj
        refine ⟨?_, ?_, ?_, ?_, ?_⟩
        · rw [List.pairwise_append]
          refine ⟨hP.increasing, by simp, ?_⟩
          intro a ha b hb
          rw [List.mem_singleton.1 hb]
          exact hpiv a ha
        · intro q hq
          rw [List.mem_append, List.mem_singleton] at hq
          rcases hq with hq | hq
          · have := hpiv q hq; have := p.2; omega
          · rw [hq]; exact ⟨p.2, le_refl _⟩
        · intro i j e
          rcases Nat.lt_trichotomy (i : Nat) pivs.length with hi | hi | hi
          · rw [List.getElem?_append_left hi] at e
            rw [k1 i j hi]
            exact hP.pivot i j e
          · rw [hi, List.getElem?_append_right (le_refl _), Nat.sub_self] at e
            simp only [List.getElem?_cons_zero, Option.some.injEq] at e
            have e1 : i = ⟨pivs.length, hlt⟩ := Fin.ext hi
            have e2 : j = p := Fin.ext e.symm
            rw [e1, e2]
            exact ⟨k3, k4⟩
          · rw [List.getElem?_eq_none (by simp; omega)] at e
            simp at e
        · intro i j q e hj
          rcases Nat.lt_trichotomy (i : Nat) pivs.length with hi | hi | hi
          · rw [List.getElem?_append_left hi] at e
            rw [k1 i j hi]
            exact hP.left i j q e hj
          · rw [hi, List.getElem?_append_right (le_refl _), Nat.sub_self] at e
            simp only [List.getElem?_cons_zero, Option.some.injEq] at e
            exact hzero i j (by omega) (by omega)
          · rw [List.getElem?_eq_none (by simp; omega)] at e
            simp at e
        · intro i j hi hj
          rw [List.length_append, List.length_singleton] at hi
          rcases hj with hj | hj
          · exact hzero i j (by omega) hj
          · rw [List.mem_append, List.mem_singleton] at hj
            rcases hj with hj | hj
            · exact hzero i j (by omega) (hpiv _ hj)
            · have e2 : j = p := Fin.ext hj
              rw [e2]
              exact k5 i (by simp; omega)
      obtain ⟨st2, H2, U2, pivs2, e3, r1, r2, r3⟩ := ih p (by omega) (pivs ++ [(p : Nat)])
        (by rw [List.length_append, List.length_singleton]; omega) hI' hP' (by rw [List.length_append, List.length_singleton]; omega)
      refine ⟨st2, H2, U2, pivs2, ?_, r1, r2, r3⟩
      rw [List.length_append, List.length_singleton] at e3
      rw [e1]
      change (S.hermiteStep r pivs.length p st).bind (fun st => (S.hermiteCheck r pivs.length p st).bind fun _ =>
        S.hermiteLoop r (pivs.length + 1) p st (pivs ++ [(p : Nat)])) = _
      rw [show S.hermiteStep r pivs.length p st = some st' from e2, Option.bind_some, hcheck]
      exact e3

theorem BezoutOps.Models.rowHermite {r c : Nat} {m : Mat α} {A : Matrix (Fin r) (Fin c) R} (hm : m.Denotes v A) :
    ∃ res H U, S.rowHermite m = some res ∧ res.h.Denotes v H ∧ res.u.Denotes v U ∧ H = U * A ∧ U.det = v res.det ∧ IsUnit (v res.det) ∧
      IsRowEchelon H res.pivs ∧ ∀ (i : Fin r) (j : Fin c), res.pivs[(i : Nat)]? = some (j : Nat) → S.IsFav v (H i j) := by
  have hD := h.toGcd.toFav.toDomain
  have hS := hD.toRing.toSemi
  obtain ⟨u, eu, hu⟩ := hS.matIdent r
  have hI : HInv v A ⟨m, u, S.one⟩ A 1 :=
    ⟨hm, hu, by rw [Matrix.one_mul], by rw [Matrix.det_one]; exact hS.one.symm, by change IsUnit (v S.one); rw [hS.one]; exact isUnit_one⟩
  have hP : HPart S v A 0 [] := ⟨by simp, by simp, by simp, by simp, by simp⟩
  obtain ⟨st, H, U, pivs, e, hI', hE, hF⟩ := h.hermiteLoop 0 (Nat.zero_le _) [] (Nat.zero_le _) hI hP
  refine ⟨⟨st.m, st.u, st.det, pivs⟩, H, U, ?_, hI'.m, hI'.u, hI'.mul, hI'.det, hI'.unit, hE, hF⟩
  unfold BezoutOps.rowHermite
  rw [hm.rows, eu]
  change (S.hermiteLoop r 0 0 ⟨m, u, S.one⟩ []).bind _ = _
  rw [show S.hermiteLoop r 0 0 ⟨m, u, S.one⟩ [] = some (st, pivs) from e, Option.bind_some]
  have hc : S.detCheck st.m.rows st.u st.det = some () := by
    unfold RingOps.detCheck
    split
    · obtain ⟨x, ex, hx⟩ := hD.toRing.detNaive hI'.u
      rw [ex]
      change assertThat (S.equal x st.det) = _
      rw [(hS.equal x st.det).2 (by rw [hx, hI'.det])]
      rfl
    · rfl
  change (S.detCheck st.m.rows st.u st.det).bind _ = _
  rw [hc]
  rfl

end

end Verif.Rings
