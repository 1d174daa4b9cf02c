import Verif.Model.AnfFactor

/-!
# Algebraic numbers as polynomials in a generator

Models rings/src/number/anf/embedded_anf.rs:96-224. The complex algebraic numbers are not modelled: the operations of theirs that are called
are the fields of `AlgOps`. The polynomial factoring is that of Model/AnfFactor.lean. `none` is a panic or an endless loop.
-/

namespace Verif.Anf
open Verif.Rings

/-- The operations of `ComplexAlgebraic` that are called: `min_poly`, `apply_poly`, `eq`, `add`, `mul` and the inclusion of the rational numbers.
Stands for rings/src/number/algebraic/complex/mod.rs:555-560, 567-571, 960-966 and its `add` and `mul`. -/
structure AlgOps (A : Type) where
  minPoly : A → Option (List ℚ)
  applyPoly : A → List ℚ → Option A
  eq : A → A → Option Bool
  add : A → A → Option A
  mul : A → A → Option A
  ofRat : ℚ → A

section
variable {A : Type} (O : AlgOps A) (ratFactor : List ℚ → Option (Option (Factored (List ℚ)))) (rng : Nat → Nat → Nat → Nat → Nat → ℚ)

/-- The loop over the factors. The degree and the leading coefficient are those over the ring of rational polynomials. Models
rings/src/number/anf/embedded_anf.rs:115-124. -/
def polyExprLoop (target generator : A) (f : List ℚ) : List (List (List ℚ) × Nat) → Option (Option (List ℚ))
  | [] => some none
  | g :: l => do
    let lc ← ratOps.toSemiRingOps.poly.polyLeadingCoeff g.1
    assertThat ((anfOps f).equal lc (anfOps f).one)
    let d ← ratOps.toSemiRingOps.poly.polyDegree g.1
    if d = 1 then do
      let a := (anfOps f).neg (ratOps.toSemiRingOps.poly.polyCoeff g.1 0)
      let x ← O.applyPoly generator a
      if ← O.eq x target then some (some a) else polyExprLoop target generator f l
    else polyExprLoop target generator f l

/-- Models `as_poly_expr`, rings/src/number/anf/embedded_anf.rs:95-127. -/
def asPolyExpr (target generator : A) : Option (Option (List ℚ)) := do
  let f ← O.minPoly generator
  let t ← O.minPoly target
  let r ← (anfFactor ratFactor f rng (t.map polyConst)).bind id
  polyExprLoop O target generator f r.factors

/-- The expression of `b` by the generator `x a + y b`. Models rings/src/number/anf/embedded_anf.rs:171-181. -/
def bRelGen (f aRel : List ℚ) (x y : Int) : List ℚ :=
  (anfOps f).mul ((anfOps f).add ratOps.polyVar ((anfOps f).mul aRel (polyConst (-(x : ℚ))))) (polyConst (1 / (y : ℚ)))

/-- The loop over the linear combinations; `rats t` is the numerator and the denominator of the rational number at position `t + 1`. The debug
assertions are left out (`C187_pair` says that they hold). Models rings/src/number/anf/embedded_anf.rs:157-193. -/
def pairSearch (rats : Nat → Int × Int) (a b : A) (t : Nat) : Option (A × Int × Int × List ℚ × List ℚ) := do
  let x := (rats t).1
  let y := (rats t).2
  let xa ← O.mul (O.ofRat x) a
  let yb ← O.mul (O.ofRat y) b
  let gen ← O.add xa yb
  let r ← asPolyExpr O ratFactor rng a gen
  match r with
  | some aRel => do
    let f ← O.minPoly gen
    some (gen, x, y, aRel, bRelGen f aRel x y)
  | none => pairSearch rats a b (t + 1)
partial_fixpoint

/-- Models `anf_pair_primitive_element_theorem`, rings/src/number/anf/embedded_anf.rs:129-195. -/
def anfPair (rats : Nat → Int × Int) (a b : A) : Option (A × Int × Int × List ℚ × List ℚ) := do
  match ← asPolyExpr O ratFactor rng b a with
  | some q => some (a, 1, 0, ratOps.polyVar, q)
  | none => do
    match ← asPolyExpr O ratFactor rng a b with
    | some p => some (b, 0, 1, p, ratOps.polyVar)
    | none => pairSearch O ratFactor rng rats a b 0

/-- The body of the loop of `anf_multi_primitive_element_theorem`. Models rings/src/number/anf/embedded_anf.rs:212-221. -/
def anfMultiStep (rats : Nat → Int × Int) (st : A × List (List ℚ)) (num : A) : Option (A × List (List ℚ)) := do
  let r ← anfPair O ratFactor rng rats st.1 num
  let f ← O.minPoly r.1
  let p ← st.2.mapM fun oldP => ratOps.pqReduce f (ratOps.polyCompose oldP r.2.2.2.1)
  some (r.1, p ++ [r.2.2.2.2])

/-- Models `anf_multi_primitive_element_theorem`, rings/src/number/anf/embedded_anf.rs:197-231; the debug assertions are left out
(`C187_multi` says that they hold). -/
def anfMulti (rats : Nat → Int × Int) : List A → Option (A × List (List ℚ))
  | [] => none
  | a :: l => l.foldlM (anfMultiStep O ratFactor rng rats) (a, [ratOps.polyVar])

end
end Verif.Anf
