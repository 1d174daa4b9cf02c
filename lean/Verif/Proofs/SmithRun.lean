import Verif.Proofs.Structure
import Verif.Model.Smith

/-! Versions of the Euclidean algorithm and of the Smith algorithm with a bound on the number of turns, which the kernel can compute,
and proofs that they agree with the model. -/

namespace Verif.Rings

section Euc
variable {α : Type} (S : EucOps α)

def EucOps.gcdRun : Nat → α → α → Option α
  | 0, x, y => if S.isZero y then some x else none
  | n + 1, x, y => if S.isZero y then some x else (S.rem x y).bind fun r => EucOps.gcdRun n y r

def EucOps.xgcdRun : Nat → XState α → Option (XState α)
  | 0, st => if S.isZero st.y then some st else none
  | n + 1, st => if S.isZero st.y then some st else (S.quoremUnwrap st.x st.y).bind fun qr => EucOps.xgcdRun n (S.xStep st qr.1 qr.2)

def EucOps.bezoutRun : BezoutOps α where
  toFavOps := S.toFavOps
  gcd x y := (S.gcdRun (S.size y) x y).bind S.favAssoc
  xgcd x y := do
    let st ← S.xgcdRun (S.size y) ⟨x, y, S.one, S.zero, S.zero, S.one⟩
    let ua ← S.factorFavAssoc st.x
    let iu ← S.isUnit ua.1
    assertThat iu
    let a ← unwrapDiv (S.div st.pa ua.1)
    let b ← unwrapDiv (S.div st.pb ua.1)
    assertThat (S.equal (S.add (S.mul a x) (S.mul b y)) ua.2)
    let g ← (S.gcdRun (S.size y) x y).bind S.favAssoc
    assertThat (S.equal ua.2 g)
    some (ua.2, a, b)

variable {S} {R : Type} [CommRing R] {v : α → R} (h : S.Models v)
include h

theorem EucOps.Models.size_pos (y : α) (hy : v y ≠ 0) : S.size y ≠ 0 := by
  unfold EucOps.size
  rcases hn : S.norm y with _ | n
  · exact absurd ((h.norm y).1 hn) hy
  · simp

theorem EucOps.Models.gcdRun (n : Nat) : ∀ x y, S.size y ≤ n → S.gcdRun n x y = S.gcdLoop x y := by
  induction n with
  | zero =>
    intro x y hn
    have : v y = 0 := by
      by_contra hy
      exact h.size_pos y hy (by omega)
    rw [EucOps.gcdRun, EucOps.gcdLoop, if_pos ((h.toSemi.isZero y).2 this), if_pos ((h.toSemi.isZero y).2 this)]
  | succ n ih =>
    intro x y hn
    rw [EucOps.gcdRun, EucOps.gcdLoop]
    by_cases hy : v y = 0
    · rw [if_pos ((h.toSemi.isZero y).2 hy), if_pos ((h.toSemi.isZero y).2 hy)]
    · have e := (h.toSemi.isZero_false y).2 hy
      rw [if_neg (by rw [e]; simp), if_neg (by rw [e]; simp)]
      obtain ⟨r, h1, -⟩ := h.rem x y
      rw [h1]
      simp only [Option.bind_eq_bind, Option.bind_some]
      exact ih y r (by have := h.rem_size x y hy r h1; omega)

theorem EucOps.Models.xgcdRun (n : Nat) : ∀ st, S.size st.y ≤ n → S.xgcdRun n st = S.xgcdLoop st := by
  induction n with
  | zero =>
    intro st hn
    have : v st.y = 0 := by
      by_contra hy
      exact h.size_pos _ hy (by omega)
    rw [EucOps.xgcdRun, EucOps.xgcdLoop, if_pos ((h.toSemi.isZero _).2 this), if_pos ((h.toSemi.isZero _).2 this)]
  | succ n ih =>
    intro st hn
    rw [EucOps.xgcdRun, EucOps.xgcdLoop]
    by_cases hy : v st.y = 0
    · rw [if_pos ((h.toSemi.isZero _).2 hy), if_pos ((h.toSemi.isZero _).2 hy)]
    · have e := (h.toSemi.isZero_false _).2 hy
      rw [if_neg (by rw [e]; simp), if_neg (by rw [e]; simp)]
      obtain ⟨q, r, g1, g2, g3⟩ := h.quorem st.x st.y hy
      have hq : S.quoremUnwrap st.x st.y = some (q, r) := by simp [EucOps.quoremUnwrap, g1]
      have hrem : S.rem st.x st.y = some r := by simp [EucOps.rem, e, g1]
      rw [hq]
      simp only [Option.bind_eq_bind, Option.bind_some]
      exact ih _ (by have := h.rem_size _ _ hy r hrem; simp only [EucOps.xStep]; omega)

theorem EucOps.Models.bezoutRun : S.bezout = S.bezoutRun := by
  have h1 : S.bezout.gcd = S.bezoutRun.gcd := by
    funext x y
    show S.euclideanGcd x y = _
    unfold EucOps.euclideanGcd
    rw [← h.gcdRun _ x y le_rfl]
    rfl
  have h2 : S.bezout.xgcd = S.bezoutRun.xgcd := by
    funext x y
    show S.euclideanXgcd x y = _
    unfold EucOps.euclideanXgcd EucOps.euclideanGcd
    rw [← h.gcdRun _ x y le_rfl, ← h.xgcdRun _ ⟨x, y, S.one, S.zero, S.zero, S.one⟩ le_rfl]
    rfl
  show (⟨⟨S.toFavOps, S.bezout.gcd⟩, S.bezout.xgcd⟩ : BezoutOps α) = _
  rw [h1, h2]
  rfl

end Euc

section Smith
variable {α : Type} (S : BezoutOps α)

/-- bind for computations that may run out of turns (`none`) or panic (`some none`) -/
def runBind {β γ : Type} (x : Option (Option β)) (f : β → Option (Option γ)) : Option (Option γ) :=
  match x with
  | none => none
  | some none => some none
  | some (some b) => f b

theorem runBind_eq {β γ : Type} {x : Option (Option β)} {f : β → Option (Option γ)} {x' : Option β} {f' : β → Option γ} {r : Option γ}
    (e : runBind x f = some r) (hx : ∀ y, x = some y → x' = y) (hf : ∀ b y, f b = some y → f' b = y) : x'.bind f' = r := by
  cases x with
  | none => cases e
  | some y =>
    rw [hx y rfl]
    cases y with
    | none => cases e; rfl
    | some b => exact hf b r e

def BezoutOps.smithZeroRun (n rows cols : Nat) : Nat → Bool → SState α → Option (Option (SState α))
  | 0, _, _ => none
  | N + 1, first, st =>
    runBind (some (S.smithClearRow n cols st)) fun r =>
      if r.2 && !first then some (some r.1)
      else runBind (some (S.smithClearCol n rows r.1)) fun r =>
        if r.2 then some (some r.1) else BezoutOps.smithZeroRun n rows cols N false r.1

theorem BezoutOps.smithZeroRun_eq (n rows cols N : Nat) : ∀ first st r, S.smithZeroRun n rows cols N first st = some r →
    S.smithZero n rows cols first st = r := by
  induction N with
  | zero => intro _ _ _ e; cases e
  | succ N ih =>
    intro first st r e
    rw [BezoutOps.smithZero]
    rw [BezoutOps.smithZeroRun] at e
    refine runBind_eq e (fun y ey => by cases ey; rfl) ?_
    intro b y ey
    split
    · rename_i hb
      rw [if_pos hb] at ey
      cases ey; rfl
    · rename_i hb
      rw [if_neg hb] at ey
      refine runBind_eq ey (fun y ey => by cases ey; rfl) ?_
      intro b y ey
      split
      · rename_i hb
        rw [if_pos hb] at ey
        cases ey; rfl
      · rename_i hb
        rw [if_neg hb] at ey
        exact ih _ _ _ ey

def BezoutOps.smithStepRun (N n rows cols : Nat) (st : SState α) : Option (Option (SState α)) :=
  runBind (some (S.smithUnit n st)) fun st =>
  runBind (S.smithZeroRun n rows cols N true st) fun st =>
  some (do
    let nz ← S.nonzeroAt st.m n n
    assertThat nz
    let st ← (rangeFrom (n + 1) rows).foldlM (S.smithFiddleRow n cols) st
    (rangeFrom (n + 1) rows).foldlM (S.smithFix n) st)

theorem BezoutOps.smithStepRun_eq (N n rows cols : Nat) (st : SState α) (r : Option (SState α))
    (e : S.smithStepRun N n rows cols st = some r) : S.smithStep n rows cols st = r := by
  unfold BezoutOps.smithStepRun at e
  unfold BezoutOps.smithStep
  refine runBind_eq e (fun y ey => by cases ey; rfl) ?_
  intro b y ey
  refine runBind_eq ey (fun y ey => S.smithZeroRun_eq _ _ _ _ _ _ _ ey) ?_
  intro b y ey
  cases ey; rfl

def BezoutOps.smithLoopRun (N rows cols : Nat) : Nat → Nat → SState α → Option (Option (SState α × Nat))
  | 0, _, _ => none
  | d + 1, n, st =>
    if n < rows ∧ n < cols then
      runBind (some (S.smithSearch n rows cols st)) fun found =>
        match found with
        | none => some (some (st, n))
        | some st =>
          runBind (S.smithStepRun N n rows cols st) fun st =>
          runBind (some (S.nonzeroAt st.m n n)) fun nz =>
            match nz with
            | false => some (some (st, n))
            | true => BezoutOps.smithLoopRun N rows cols d (n + 1) st
    else some (some (st, n))

theorem BezoutOps.smithLoopRun_eq (N rows cols d : Nat) : ∀ n st r, S.smithLoopRun N rows cols d n st = some r →
    S.smithLoop n rows cols st = r := by
  induction d with
  | zero => intro n st r e; cases e
  | succ d ih =>
    intro n st r e
    rw [BezoutOps.smithLoop]
    rw [BezoutOps.smithLoopRun] at e
    split
    · rename_i hc
      rw [if_pos hc] at e
      refine runBind_eq e (fun y ey => by cases ey; rfl) ?_
      intro found y ey
      cases found with
      | none => cases ey; rfl
      | some st =>
        refine runBind_eq ey (fun y ey => S.smithStepRun_eq _ _ _ _ _ _ ey) ?_
        intro b y ey
        refine runBind_eq ey (fun y ey => by cases ey; rfl) ?_
        intro nz y ey
        cases nz with
        | false => cases ey; rfl
        | true => exact ih _ _ _ ey
    · rename_i hc
      rw [if_neg hc] at e
      cases e; rfl

/-- the Smith algorithm with at most `N` turns of the clearing loop in each round -/
def BezoutOps.smithRun (N : Nat) (m : Mat α) : Option (Option (SmithResult α)) :=
  runBind (some (S.matIdent m.rows)) fun u =>
  runBind (some (S.matIdent m.cols)) fun v =>
  runBind (S.smithLoopRun N m.rows m.cols (m.rows + 1) 0 ⟨m, u, v⟩) fun r => some (some ⟨r.1.u, r.1.m, r.1.v, r.2⟩)

theorem BezoutOps.smithRun_eq (N : Nat) (m : Mat α) (r : Option (SmithResult α)) (e : S.smithRun N m = some r) : S.smith m = r := by
  unfold BezoutOps.smithRun at e
  unfold BezoutOps.smith
  refine runBind_eq e (fun y ey => by cases ey; rfl) ?_
  intro u y ey
  refine runBind_eq ey (fun y ey => by cases ey; rfl) ?_
  intro w y ey
  refine runBind_eq ey (fun y ey => S.smithLoopRun_eq _ _ _ _ _ _ _ ey) ?_
  intro b y ey
  cases ey; rfl

end Smith
end Verif.Rings
