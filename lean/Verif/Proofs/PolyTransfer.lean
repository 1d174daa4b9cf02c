import Verif.Model.Polynomial
import Mathlib.Tactic.SplitIfs

/-!
# Division of polynomials does not look inside the coefficients

A map of representatives that respects the operations of two coefficient structures respects the division of polynomials.
-/

namespace Verif.Rings

/-- `ι` respects the operations of two structures, where it matters: nothing is said about a division by zero, as the algorithms on polynomials
test the divisor before. -/
structure DomainOps.Hom {β α : Type} (T : DomainOps β) (S : DomainOps α) (ι : β → α) : Prop where
  equal : ∀ a b, S.equal (ι a) (ι b) = T.equal a b
  zero : S.zero = ι T.zero
  one : S.one = ι T.one
  add : ∀ a b, S.add (ι a) (ι b) = ι (T.add a b)
  mul : ∀ a b, S.mul (ι a) (ι b) = ι (T.mul a b)
  neg : ∀ a, S.neg (ι a) = ι (T.neg a)
  div : ∀ a b r, T.div a b = some r → r ≠ .error .divideByZero → S.div (ι a) (ι b) = some (r.map ι)

namespace DomainOps.Hom
variable {β α : Type} {T : DomainOps β} {S : DomainOps α} {ι : β → α} (h : T.Hom S ι)
include h

theorem getD (L : List β) (i : Nat) : (L.map ι).getD i S.zero = ι (L.getD i T.zero) := by
  rw [h.zero, List.getD_eq_getElem?_getD, List.getD_eq_getElem?_getD, List.getElem?_map]
  cases L[i]? <;> rfl

theorem polyCoeff (L : List β) (i : Nat) : S.polyCoeff (L.map ι) i = ι (T.polyCoeff L i) := h.getD L i

theorem polyEqual (L M : List β) : S.polyEqual (L.map ι) (M.map ι) = T.polyEqual L M := by
  simp only [SemiRingOps.polyEqual, List.length_map, h.polyCoeff, h.equal]

theorem polyReduce (L : List β) : S.polyReduce (L.map ι) = (T.polyReduce L).map ι := by
  induction hn : L.length generalizing L with
  | zero =>
    rw [List.length_eq_zero_iff] at hn
    subst hn
    rw [List.map_nil, SemiRingOps.polyReduce, SemiRingOps.polyReduce, List.map_nil]
  | succ n ih =>
    cases L with
    | nil => simp at hn
    | cons x t =>
      rw [List.map_cons, SemiRingOps.polyReduce, SemiRingOps.polyReduce]
      have h1 : (ι x :: t.map ι).getLast (List.cons_ne_nil _ _) = ι ((x :: t).getLast (List.cons_ne_nil _ _)) := by
        have := List.getLast_map (f := ι) (l := x :: t) (by simp)
        simpa using this
      rw [h1, h.zero, h.equal]
      have h2 : (ι x :: t.map ι).dropLast = ((x :: t).dropLast).map ι := by
        have := List.map_dropLast (f := ι) (l := x :: t)
        rw [List.map_cons] at this
        exact this.symm
      rw [h2, ih _ (by simp at hn ⊢; omega)]
      split_ifs <;> simp

theorem polyAdd (L M : List β) : S.polyAdd (L.map ι) (M.map ι) = (T.polyAdd L M).map ι := by
  rw [SemiRingOps.polyAdd, SemiRingOps.polyAdd, ← h.polyReduce, List.map_map]
  simp only [List.length_map, h.polyCoeff, h.add, Function.comp_def]

theorem polyMulStep (L M : List β) (i : Nat) (c : List β) (j : Nat) :
    S.polyMulStep (L.map ι) (M.map ι) i (c.map ι) j = (T.polyMulStep L M i c j).map ι := by
  simp only [SemiRingOps.polyMulStep, h.getD, h.mul, h.add, List.map_set]

theorem polyMulRow (L M : List β) (c : List β) (i : Nat) :
    S.polyMulRow (L.map ι) (M.map ι) (c.map ι) i = (T.polyMulRow L M c i).map ι := by
  rw [SemiRingOps.polyMulRow, SemiRingOps.polyMulRow, List.length_map]
  induction List.range M.length generalizing c with
  | nil => rfl
  | cons j l ih => rw [List.foldl_cons, List.foldl_cons, h.polyMulStep, ih]

theorem polyMul (L M : List β) : S.polyMul (L.map ι) (M.map ι) = (T.polyMul L M).map ι := by
  rw [SemiRingOps.polyMul, SemiRingOps.polyMul, ← h.polyReduce, List.length_map, List.length_map]
  congr 1
  rw [show List.replicate (L.length + M.length) S.zero = (List.replicate (L.length + M.length) T.zero).map ι by
    rw [h.zero, List.map_replicate]]
  generalize List.replicate (L.length + M.length) T.zero = c
  induction List.range L.length generalizing c with
  | nil => rfl
  | cons j l ih => rw [List.foldl_cons, List.foldl_cons, h.polyMulRow, ih]

theorem polyNeg (L : List β) : S.polyNeg (L.map ι) = (T.polyNeg L).map ι := by
  simp only [RingOps.polyNeg, List.map_map, Function.comp_def, h.neg]

theorem polyMulVarPow (L : List β) (n : Nat) : S.polyMulVarPow (L.map ι) n = (T.polyMulVarPow L n).map ι := by
  simp only [SemiRingOps.polyMulVarPow, List.map_append, List.map_replicate, h.zero]

theorem polyMulScalar (L : List β) (x : β) : S.polyMulScalar (L.map ι) (ι x) = (T.polyMulScalar L x).map ι := by
  rw [SemiRingOps.polyMulScalar, SemiRingOps.polyMulScalar, ← h.polyReduce]
  simp only [List.map_map, Function.comp_def, h.mul]

theorem polySubShift (L M : List β) (x : β) (i : Nat) :
    S.polySubShift (L.map ι) (M.map ι) (ι x) i = (T.polySubShift L M x i).map ι := by
  rw [RingOps.polySubShift, RingOps.polySubShift, ← h.polyAdd, ← h.polyNeg, ← h.polyMulVarPow, ← h.polyMulScalar]

theorem polyIsZero (L : List β) : S.toSemiRingOps.poly.isZero (L.map ι) = T.toSemiRingOps.poly.isZero L :=
  h.polyEqual L []

theorem polyDegree (L : List β) : S.polyDegree (L.map ι) = T.polyDegree L := by
  simp only [SemiRingOps.polyDegree, List.length_map, h.getD, SemiRingOps.isZero]
  simp only [h.zero, h.equal]

theorem polyNumCoeffs (L : List β) : S.polyNumCoeffs (L.map ι) = T.polyNumCoeffs L := by
  simp only [SemiRingOps.polyNumCoeffs, h.polyDegree]

/-- The image of the result of a division with remainder. -/
def mapPair (ι : β → α) (p : List β × List β) : List α × List α := (p.1.map ι, p.2.map ι)

omit h in
theorem mapPair_def (ι : β → α) (q r : List β) : mapPair ι (q, r) = (q.map ι, r.map ι) := rfl

theorem polyQuoremLoop (M : List β) (n k : Nat) (q L : List β) (r : Except DivErr (List β × List β))
    (hr : T.polyQuoremLoop M n k q L = some r) :
    S.polyQuoremLoop (M.map ι) n k (q.map ι) (L.map ι) = some (r.map (mapPair ι)) := by
  induction k generalizing q L with
  | zero => cases hr; rfl
  | succ i ih =>
    rw [DomainOps.polyQuoremLoop] at hr ⊢
    rw [h.polyCoeff, h.polyCoeff]
    cases hd : T.div (T.polyCoeff L (i + n - 1)) (T.polyCoeff M (n - 1)) with
    | none => rw [hd] at hr; cases hr
    | some d =>
      rw [hd] at hr
      cases d with
      | error e =>
        cases e with
        | divideByZero => cases hr
        | notDivisible => rw [h.div _ _ _ hd (by simp)]; cases hr; rfl
      | ok qc =>
        rw [h.div _ _ _ hd (by simp)]
        simp only [Except.map] at hr ⊢
        rw [← List.map_set, h.polySubShift]
        exact ih _ _ hr

theorem polyTryQuorem (L M : List β) (r : Except DivErr (List β × List β)) (hr : T.polyTryQuorem L M = some r) :
    S.polyTryQuorem (L.map ι) (M.map ι) = some (r.map (mapPair ι)) := by
  simp only [DomainOps.polyTryQuorem, h.polyNumCoeffs] at hr ⊢
  split_ifs at hr ⊢
  · cases hr; rfl
  · cases hr; rfl
  · rw [← h.polyQuoremLoop _ _ _ _ _ _ hr, List.map_replicate, h.zero]

theorem polyDiv (L M : List β) (r : Except DivErr (List β)) (hr : T.polyDiv L M = some r) :
    S.polyDiv (L.map ι) (M.map ι) = some (r.map (List.map ι)) := by
  rw [DomainOps.polyDiv] at hr ⊢
  cases ht : T.polyTryQuorem L M with
  | none => rw [ht] at hr; cases hr
  | some t =>
    rw [ht] at hr
    rw [h.polyTryQuorem L M t ht]
    rcases t with e | ⟨q, s⟩
    · cases hr; rfl
    · simp only [Except.map, mapPair, DomainOps.polyDivCheck] at hr ⊢
      rw [h.polyMul, h.polyAdd, h.polyEqual, h.polyIsZero]
      split_ifs at hr ⊢ <;> cases hr <;> rfl

theorem unwrap (a b c : β) (hc : unwrapDiv (T.div a b) = some c) : unwrapDiv (S.div (ι a) (ι b)) = some (ι c) := by
  rcases hd : T.div a b with _ | ⟨e | d⟩
  · rw [hd] at hc; cases hc
  · rw [hd] at hc; cases hc
  · rw [hd] at hc; cases hc
    rw [h.div _ _ _ hd (by simp)]; rfl

theorem unwrapPoly (L M N : List β) (hN : unwrapDiv (T.polyDiv L M) = some N) :
    unwrapDiv (S.polyDiv (L.map ι) (M.map ι)) = some (N.map ι) := by
  rcases hd : T.polyDiv L M with _ | ⟨e | d⟩
  · rw [hd] at hN; cases hN
  · rw [hd] at hN; cases hN
  · rw [hd] at hN; cases hN
    rw [h.polyDiv _ _ _ hd]; rfl

theorem natPow (a : β) (n : Nat) : S.natPow (ι a) n = ι (T.natPow a n) := by
  simp only [SemiRingOps.natPow, binPow]
  split_ifs
  · exact h.one
  · rfl
  · have hg : ∀ (k : Nat) (l : List β) (x : β), growPows S.mul k (l.map ι) (ι x) = (growPows T.mul k l x).map ι := by
      intro k l x
      induction hn : k - l.length generalizing l x with
      | zero =>
        rw [growPows, if_neg (by simp; omega), growPows, if_neg (by omega)]
      | succ n ih =>
        have e : growPows T.mul k l x = growPows T.mul k (l ++ [T.mul x x]) (T.mul x x) := by rw [growPows, if_pos (by omega)]
        rw [e, ← ih _ _ (by simp; omega), growPows, if_pos (by simp; omega), h.mul]
        simp
    have hf : ∀ (bits : List Bool) (l : List β) (x : β), foldPows S.mul (ι x) bits (l.map ι) = ι (foldPows T.mul x bits l) := by
      intro bits
      induction bits with
      | nil => intro l x; simp [foldPows]
      | cons b bits ih => intro l x; cases l <;> cases b <;> simp [foldPows, h.mul] <;> exact ih _ _
    have := hg n.bits.length [a] a
    rw [List.map_cons, List.map_nil] at this
    rw [this, h.one, hf]

theorem polyLeadingCoeff (L : List β) : S.polyLeadingCoeff (L.map ι) = (T.polyLeadingCoeff L).map ι := by
  simp only [SemiRingOps.polyLeadingCoeff, h.polyDegree, Option.map_map, h.getD, Function.comp_def]

theorem polyPremUnwrap (L M N : List β) (hN : T.polyPremUnwrap L M = some N) :
    S.polyPremUnwrap (L.map ι) (M.map ι) = some (N.map ι) := by
  simp only [DomainOps.polyPremUnwrap, DomainOps.polyPseudorem, h.polyNumCoeffs, h.polyCoeff, h.natPow] at hN ⊢
  split_ifs at hN ⊢
  · cases hN
  · cases hN
  · have := h.polyMul L (polyConst (T.natPow (T.polyCoeff M (T.polyNumCoeffs M - 1)) (T.polyNumCoeffs L - T.polyNumCoeffs M + 1)))
    simp only [polyConst, List.map_cons, List.map_nil] at this hN ⊢
    rw [this]
    rcases ht : T.polyTryQuorem (T.polyMul L [T.natPow (T.polyCoeff M (T.polyNumCoeffs M - 1)) (T.polyNumCoeffs L - T.polyNumCoeffs M + 1)]) M
      with _ | ⟨e | ⟨q, r⟩⟩
    · rw [ht] at hN; cases hN
    · rw [ht] at hN; cases hN
    · rw [ht] at hN; cases hN
      rw [h.polyTryQuorem _ _ _ ht]; rfl

theorem prsGamma (l g : β) (d : Nat) (c : β) (hc : T.prsGamma l g d = some c) : S.prsGamma (ι l) (ι g) d = some (ι c) := by
  simp only [DomainOps.prsGamma, h.neg, h.natPow] at hc ⊢
  split_ifs at hc ⊢
  · exact h.unwrap _ _ _ hc
  · cases hc; rfl

/-- The image of the variables of the loop of the subresultants. -/
def mapState (ι : β → α) (st : PrsState β) : PrsState α :=
  ⟨st.prs.map (List.map ι), st.ssres.map ι, st.b.map ι, st.bDeg, st.r.map ι, ι st.lcB, ι st.gamma⟩

theorem prsStep (st st' : PrsState β) (d : Nat) (hs : T.prsStep st d = some st') :
    S.prsStep (mapState ι st) d = some (mapState ι st') := by
  simp only [DomainOps.prsStep, mapState, h.neg, h.natPow, h.mul] at hs ⊢
  cases hp : T.polyPremUnwrap st.b st.r with
  | none => rw [hp] at hs; cases hs
  | some pr =>
    rw [hp] at hs
    rw [h.polyPremUnwrap _ _ _ hp]
    simp only [Option.bind_eq_bind, Option.bind_some] at hs ⊢
    cases hr : unwrapDiv (T.polyDiv pr (polyConst (T.mul (T.neg st.lcB) (T.natPow st.gamma (st.bDeg - d))))) with
    | none => rw [hr] at hs; cases hs
    | some r =>
      rw [hr] at hs
      have := h.unwrapPoly _ _ _ hr
      simp only [polyConst, List.map_cons, List.map_nil] at this ⊢
      rw [this]
      simp only [Option.bind_some, h.polyLeadingCoeff] at hs ⊢
      cases hl : T.polyLeadingCoeff st.r with
      | none => rw [hl] at hs; cases hs
      | some l =>
        rw [hl] at hs
        simp only [Option.map_some, Option.bind_some] at hs ⊢
        cases hg : T.prsGamma l st.gamma (st.bDeg - d) with
        | none => rw [hg] at hs; cases hs
        | some g =>
          rw [hg] at hs
          rw [h.prsGamma _ _ _ _ hg]
          cases hs
          simp [h.neg]

theorem prsLoop (st : PrsState β) (r : List (List β) × List β) (hr : T.prsLoop st = some r) :
    S.prsLoop (mapState ι st) = some (r.1.map (List.map ι), r.2.map ι) := by
  refine DomainOps.prsLoop.partial_correctness T
    (fun st r => S.prsLoop (mapState ι st) = some (r.1.map (List.map ι), r.2.map ι)) ?_ st r hr
  intro f ih st r hf
  rw [DomainOps.prsLoop]
  have hd : S.polyDegree (mapState ι st).r = T.polyDegree st.r := h.polyDegree st.r
  have hz : S.toSemiRingOps.poly.isZero (mapState ι st).r = T.toSemiRingOps.poly.isZero st.r := h.polyIsZero st.r
  rw [hd, hz]
  cases hdeg : T.polyDegree st.r with
  | some d =>
    rw [hdeg] at hf
    simp only at hf ⊢
    cases hs : T.prsStep st d with
    | none => rw [hs] at hf; simp at hf
    | some st' =>
      rw [hs] at hf
      rw [h.prsStep _ _ _ hs]
      exact ih st' r hf
  | none =>
    rw [hdeg] at hf
    simp only at hf ⊢
    cases hz' : T.toSemiRingOps.poly.isZero st.r with
    | false => rw [hz'] at hf; simp [assertThat] at hf
    | true =>
      rw [hz'] at hf
      simp only [assertThat, if_true, Option.bind_eq_bind, Option.bind_some, Option.some.injEq] at hf ⊢
      rw [← hf]; rfl

theorem prsOrdered (L M : List β) (a b : Nat) (r : List (List β) × List β) (hr : T.prsOrdered L M a b = some r) :
    S.prsOrdered (L.map ι) (M.map ι) a b = some (r.1.map (List.map ι), r.2.map ι) := by
  simp only [DomainOps.prsOrdered, h.one, h.neg, h.natPow] at hr ⊢
  cases hp : T.polyPremUnwrap L M with
  | none => rw [hp] at hr; simp at hr
  | some pr =>
    rw [hp] at hr
    rw [h.polyPremUnwrap _ _ _ hp]
    simp only [Option.bind_eq_bind, Option.bind_some, h.polyLeadingCoeff] at hr ⊢
    cases hl : T.polyLeadingCoeff M with
    | none => rw [hl] at hr; simp at hr
    | some l =>
      rw [hl] at hr
      simp only [Option.map_some, Option.bind_some, h.natPow, h.polyMulScalar, h.neg] at hr ⊢
      exact h.prsLoop _ _ hr

theorem polyPrs (L M : List β) (r : List (List β) × List β) (hr : T.polyPrs L M = some r) :
    S.polyPrs (L.map ι) (M.map ι) = some (r.1.map (List.map ι), r.2.map ι) := by
  simp only [DomainOps.polyPrs, h.polyDegree] at hr ⊢
  cases hL : T.polyDegree L with
  | none =>
    cases hM : T.polyDegree M with
    | none => rw [hL, hM] at hr; cases hr; rfl
    | some m => rw [hL, hM] at hr; cases hr; simp [h.one]
  | some l =>
    cases hM : T.polyDegree M with
    | none => rw [hL, hM] at hr; cases hr; simp [h.one]
    | some m =>
      rw [hL, hM] at hr
      simp only at hr ⊢
      split_ifs at hr ⊢
      · exact h.prsOrdered _ _ _ _ _ hr
      · exact h.prsOrdered _ _ _ _ _ hr

theorem polyResultant (L M : List β) (s : β) (hs : T.polyResultant L M = some s) :
    S.polyResultant (L.map ι) (M.map ι) = some (ι s) := by
  simp only [DomainOps.polyResultant, h.polyIsZero] at hs ⊢
  split_ifs at hs ⊢
  · rw [h.zero]; cases hs; rfl
  · cases hp : T.polyPrs L M with
    | none => rw [hp] at hs; simp at hs
    | some t =>
      rw [hp] at hs
      rw [h.polyPrs L M t hp]
      simp only [Option.bind_some, DomainOps.resultantOf, List.getLast?_map] at hs ⊢
      cases hl : t.1.getLast? with
      | none => rw [hl] at hs; simp at hs
      | some last =>
        rw [hl] at hs
        simp only [Option.map_some, Option.bind_eq_bind, Option.bind_some, h.polyDegree] at hs ⊢
        cases hd : T.polyDegree last with
        | none => rw [hd] at hs; simp at hs
        | some d =>
          rw [hd] at hs
          simp only [Option.bind_some] at hs ⊢
          split_ifs at hs ⊢
          · rw [h.zero]; cases hs; rfl
          · rw [hs]; rfl

end DomainOps.Hom

end Verif.Rings
