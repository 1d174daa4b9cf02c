import Verif.Model.Factored
import Verif.Model.Numbers
import Verif.Model.Polynomial

/-!
# Hensel lifting

A `HenselFactorizationImpl` is a polynomial `h` with a `HenselProduct`; the boxes and the struct
`HenselFactorizationImpl` are inlined into the branches of the tree. `debug_assert!`s and `#[cfg(debug_assertions)]` checks are
part of the model: a failing one is a panic (`none`). Line numbers refer to rings/src/polynomial/hensel_lifting.rs.
-/

namespace Verif.Rings

/-- Models `HenselProduct`, rings/src/polynomial/hensel_lifting.rs:15-30: a leaf, or two subtrees with their
polynomials and the Bézout coefficients. -/
inductive HenselProduct (α : Type)
  | leaf
  | branch (f : List α) (fp : HenselProduct α) (g : List α) (gp : HenselProduct α) (a b : List α)

/-- Models `factor_list`, rings/src/polynomial/hensel_lifting.rs:163-178 and 435-437. -/
def HenselProduct.factorList {α : Type} (h : List α) : HenselProduct α → List (List α)
  | .leaf => [h]
  | .branch f fp g gp _ _ => fp.factorList f ++ gp.factorList g

section
variable {α : Type} (S : EucOps α)

/-- Models `QuotientStructure::new_ring`, rings/src/structure/quotient.rs:13-17 and 31-35: a zero modulus panics. -/
def EucOps.newRing (m : α) : Option (RingOps α) := do
  assertThat (!S.isZero m)
  some (S.quotientRing m)

/-- Models `QuotientStructure::new_field`, rings/src/structure/quotient.rs:43-53, with the factoring of the ring given. -/
def EucOps.newField (factor : α → Option (Option (Factored α))) (m : α) : Option (DomainOps α) := do
  let irr ← isIrreducibleBy factor m
  assertThat irr
  assertThat (!S.isZero m)
  some (S.quotientField m)

/-- Models `apply_map(|c| ring.rem(c, m))`, rings/src/polynomial/hensel_lifting.rs:142-147. -/
def EucOps.polyRemAll (m : α) (p : List α) : Option (List α) := p.mapM fun c => S.rem c m

/-- `af + bg - 1` is zero in the given polynomial ring. Models rings/src/polynomial/hensel_lifting.rs:82-86. -/
def RingOps.bezoutOk {α : Type} (P : RingOps (List α)) (a f b g : List α) : Bool :=
  P.isZero (P.sum [P.mul a f, P.mul b g, P.neg P.one])

/-- The checks on one branch (`true` is `Ok`). Models rings/src/polynomial/hensel_lifting.rs:74-122. -/
def EucOps.henselCheckNode (lifted : Bool) (i : α) (n : Nat) (h f g a b : List α) : Option Bool := do
  let ri ← S.newRing i
  let rn ← S.newRing (S.natPow i n)
  if !ri.poly.bezoutOk a f b g then some false
  else if lifted && !rn.poly.bezoutOk a f b g then some false
  else do
    let alpha ← S.polyLeadingCoeff h
    some (rn.poly.equal h (rn.poly.product [polyConst alpha, f, g]))

/-- Sequencing of checks with `?`. -/
def andThenCheck (x : Option Bool) (y : Option Bool) : Option Bool :=
  x.bind fun b => if b then y else some false

/-- Models `check`, rings/src/polynomial/hensel_lifting.rs:58-125 and 389-396. -/
def EucOps.henselCheck (lifted : Bool) (i : α) (n : Nat) (h : List α) : HenselProduct α → Option Bool
  | .leaf => some true
  | .branch f fp g gp a b =>
    andThenCheck (EucOps.henselCheck lifted i n f fp)
      (andThenCheck (EucOps.henselCheck lifted i n g gp) (S.henselCheckNode lifted i n h f g a b))

/-- The branch of `new` with at least two factors, together with `new_split`, given the construction of the two subtrees.
Models rings/src/polynomial/hensel_lifting.rs:127-161 and 412-430. -/
def EucOps.henselSplit (factor : α → Option (Option (Factored α))) (p : α) (n : Nat) (h : List α)
    (first second : List (List α)) (mk1 mk2 : List α → Option (HenselProduct α)) : Option (HenselProduct α) := do
  let alpha ← S.polyLeadingCoeff h
  let t ← S.euclideanXgcd alpha p
  assertThat (S.equal t.1 S.one)
  let field ← S.newField factor p
  let f ← S.polyRemAll (S.natPow p n) (S.toSemiRingOps.poly.product first)
  let g ← S.polyRemAll (S.natPow p n) (S.toSemiRingOps.poly.product second)
  let u ← field.polyBezout.xgcd f g
  assertThat (field.poly.equal u.1 field.poly.one)
  let fp ← mk1 f
  let gp ← mk2 g
  some (.branch f fp g gp u.2.1 u.2.2)

/-- Models `HenselFactorizationImpl::new`, rings/src/polynomial/hensel_lifting.rs:398-433: no factor panics, one factor is a
leaf, more are split in the middle. -/
def EucOps.henselImplNew (factor : α → Option (Option (Factored α))) (p : α) (n : Nat) (fs : List (List α)) (h : List α) :
    Option (HenselProduct α) :=
  match fs with
  | [] => none
  | [_] => some .leaf
  | x :: y :: rest =>
    let l := x :: y :: rest
    let k := l.length / 2
    S.henselSplit factor p n h (l.take k) (l.drop k)
      (EucOps.henselImplNew factor p n (l.take k)) (EucOps.henselImplNew factor p n (l.drop k))
termination_by fs.length
decreasing_by
  all_goals simp
  all_goals omega

/-- Models `HenselFactorization`, rings/src/polynomial/hensel_lifting.rs:43-51. -/
structure HenselFact (α : Type) where
  i : α
  n : Nat
  h : List α
  prod : HenselProduct α

/-- Models `check`, rings/src/polynomial/hensel_lifting.rs:475-478. -/
def EucOps.henselFactCheck (lifted : Bool) (t : HenselFact α) : Option Bool := S.henselCheck lifted t.i t.n t.h t.prod

/-- The debug assertion on the product in `new`. Models rings/src/polynomial/hensel_lifting.rs:498-508. -/
def EucOps.henselProductOk (p : α) (n : Nat) (h : List α) (fs : List (List α)) : Option Bool := do
  let rn ← S.newRing (S.natPow p n)
  let alpha ← S.polyLeadingCoeff h
  some (rn.poly.equal h (rn.poly.mul (polyConst alpha) (rn.poly.product fs)))

/-- Models `new`, rings/src/polynomial/hensel_lifting.rs:480-520. -/
def EucOps.henselNew (lifted : Bool) (factor : α → Option (Option (Factored α))) (p : α) (n : Nat) (h : List α)
    (fs : List (List α)) : Option (HenselFact α) := do
  let irr ← isIrreducibleBy factor p
  assertThat irr
  assertThat (decide (1 ≤ fs.length))
  assertThat (fs.all fun f => S.polyIsMonic f)
  let ok ← S.henselProductOk p n h fs
  assertThat ok
  let pr ← S.henselImplNew factor p n fs h
  let ans : HenselFact α := ⟨p, n, h, pr⟩
  let c ← S.henselFactCheck lifted ans
  assertThat c
  some ans

/-- Models `modolus`, rings/src/polynomial/hensel_lifting.rs:522-524. -/
def EucOps.henselModulus (t : HenselFact α) : α := S.natPow t.i t.n

/-- Models `factors`, rings/src/polynomial/hensel_lifting.rs:527-529. -/
def HenselFact.factors {α : Type} (t : HenselFact α) : List (List α) := t.prod.factorList t.h

/-- Models `dont_lift_bezout_coeffs`, rings/src/polynomial/hensel_lifting.rs:181-201, 440-450 and 532-544: the data stay the
same, only the type changes, which is here the flag `lifted` of the check. -/
def HenselFact.dontLift {α : Type} (t : HenselFact α) : HenselFact α := t

/-- `h - alpha f g` in the ring given. Models rings/src/polynomial/hensel_lifting.rs:232-236 and 244-254. -/
def RingOps.henselDelta {α : Type} (P : RingOps (List α)) (alpha : α) (h f g : List α) : List α :=
  P.add h (P.neg (P.product [polyConst alpha, f, g]))

/-- `Result::unwrap` on the result of `try_quorem`. -/
def unwrapQuorem {β : Type} : Option (Except DivErr β) → Option β
  | some (.ok q) => some q
  | _ => none

/-- The result of `compute_lift_factors`. Models rings/src/polynomial/hensel_lifting.rs:215-220. -/
structure LiftedFactors (α : Type) where
  (deltaF deltaG f g : List α)

/-- Models `compute_lift_factors`, rings/src/polynomial/hensel_lifting.rs:203-284, with its debug assertions (the one that
compares `alpha` with the leading coefficient it is, lines 228-229, is left out). -/
def EucOps.computeLift (i : α) (n : Nat) (a b f g h : List α) : Option (LiftedFactors α) := do
  let alpha ← S.polyLeadingCoeff h
  let t ← S.euclideanXgcd alpha i
  assertThat (S.equal t.1 S.one)
  let m := S.natPow i (n + 1)
  let dh ← S.polyRemAll m (S.toRingOps.poly.henselDelta alpha h f g)
  let rm ← S.newRing m
  assertThat (rm.poly.equal dh (rm.poly.henselDelta alpha h f g))
  let d ← S.polyDegree h
  assertThat (decide ((S.polyDegree dh).getD 0 < d))
  let qg ← unwrapQuorem (S.polyTryQuorem (S.polyMul a dh) g)
  let qf ← unwrapQuorem (S.polyTryQuorem (S.polyMul b dh) f)
  assertThat (rm.poly.isZero (rm.poly.add qf.1 qg.1))
  let df := S.polyMul (polyConst t.2.1) qf.2
  let dg := S.polyMul (polyConst t.2.1) qg.2
  let lf ← S.polyRemAll m (S.polyAdd df f)
  let lg ← S.polyRemAll m (S.polyAdd dg g)
  some ⟨df, dg, lf, lg⟩

/-- Models `linear_lift` of the tree, rings/src/polynomial/hensel_lifting.rs:286-313 and 452-459. -/
def EucOps.henselLinear (i : α) (n : Nat) : List α → HenselProduct α → Option (HenselProduct α)
  | _, .leaf => some .leaf
  | h, .branch f fp g gp a b => do
    let t ← S.computeLift i n a b f g h
    let fp' ← EucOps.henselLinear i n t.f fp
    let gp' ← EucOps.henselLinear i n t.g gp
    let r := HenselProduct.branch t.f fp' t.g gp' a b
    let c ← S.henselCheck false i (n + 1) h r
    assertThat c
    some r

/-- The new Bézout coefficients of `quadratic_lift`, in the polynomials modulo `i^(2n)`.
Models rings/src/polynomial/hensel_lifting.rs:338-374. -/
def RingOps.henselBezout {α : Type} (P : RingOps (List α)) (a b f g : List α) (t : LiftedFactors α) :
    Option (List α × List α) := do
  let beta := P.sum [P.mul a f, P.mul b g, P.neg P.one]
  let delta := P.sum [beta, P.mul a t.deltaF, P.mul b t.deltaG]
  assertThat (P.equal (P.add (P.mul a t.f) (P.mul b t.g)) (P.add delta P.one))
  let da := P.neg (P.mul a delta)
  let db := P.neg (P.mul b delta)
  some (P.add a da, P.add b db)

/-- Models `quadratic_lift` of the tree, rings/src/polynomial/hensel_lifting.rs:315-382 and 461-468. -/
def EucOps.henselQuadratic (i : α) (n : Nat) : List α → HenselProduct α → Option (HenselProduct α)
  | _, .leaf => some .leaf
  | h, .branch f fp g gp a b => do
    let r2 ← S.newRing (S.natPow i (n * 2))
    let t ← S.computeLift (S.natPow i n) 1 a b f g h
    let ab ← r2.poly.henselBezout a b f g t
    let fp' ← EucOps.henselQuadratic i n t.f fp
    let gp' ← EucOps.henselQuadratic i n t.g gp
    let r := HenselProduct.branch t.f fp' t.g gp' ab.1 ab.2
    let c ← S.henselCheck true i (n * 2) h r
    assertThat c
    some r

/-- Models `linear_lift`, rings/src/polynomial/hensel_lifting.rs:546-555. -/
def EucOps.henselLinearLift (t : HenselFact α) : Option (HenselFact α) :=
  (S.henselLinear t.i t.n t.h t.prod).map fun pr => { t with n := t.n + 1, prod := pr }

/-- Models `quadratic_lift`, rings/src/polynomial/hensel_lifting.rs:557-566. -/
def EucOps.henselQuadraticLift (t : HenselFact α) : Option (HenselFact α) :=
  (S.henselQuadratic t.i t.n t.h t.prod).map fun pr => { t with n := t.n * 2, prod := pr }

/-- The loop that collects the factors: `None` when a power is not one. Models
rings/src/polynomial/hensel_lifting.rs:588-596. -/
def squarefreeFactors {α : Type} : List (α × Nat) → Option (List α)
  | [] => some []
  | (f, k) :: rest => if k = 1 then (squarefreeFactors rest).map (f :: ·) else none

/-- Models `into_hensel_factorization`, rings/src/polynomial/hensel_lifting.rs:568-605: the factorization is one over the field
modulo `p`. The outer `Option` is panic. -/
def EucOps.intoHensel (factor : α → Option (Option (Factored α))) (p : α) (fact : Factored (List α)) (h : List α) :
    Option (Option (HenselFact α)) :=
  match squarefreeFactors fact.factors with
  | none => some none
  | some fs => do
    let t ← S.henselNew true factor p 1 h fs
    let c ← S.henselFactCheck true t
    assertThat c
    some (some t)

end
end Verif.Rings
