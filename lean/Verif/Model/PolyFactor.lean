import Verif.Model.Polynomial
import Verif.Model.Factored
import Verif.Model.Numbers

/-!
# Factoring polynomials over rings of characteristic zero, over fields of fractions, and by brute force

Line numbers refer to rings/src/polynomial/factoring.rs.
-/

namespace Verif.Rings

/-- Models `UniqueFactorizationStructure + GreatestCommonDivisorStructure` (required methods),
rings/src/structure/structure.rs:380-390 and 329-332. -/
structure UfdOps (α : Type) extends GcdOps α where
  factor : α → Option (Option (Factored α))

/-- The integers with the factoring function `factor` (`intFactor`, or any other).
Models rings/src/number/integer/mod.rs:85-107 and 127-131. -/
def intUfd (factor : Int → Option (Option (Factored Int))) : UfdOps Int where
  toGcdOps := intOps.bezout.toGcdOps
  factor := factor

section Yun
variable {α : Type} (S : UfdOps α)

/-- `factor(&x).unwrap()`. Models rings/src/polynomial/factoring.rs:29-33,180. -/
def UfdOps.factorUnwrap (x : α) : Option (Factored α) := (S.factor x).bind id

/-- The factorization of the content as a factorization of a polynomial.
Models rings/src/polynomial/factoring.rs:35-42. -/
def polyConstFactored {α : Type} (f : Factored α) : Factored (List α) :=
  ⟨polyConst f.unit, f.factors.map fun p => (polyConst p.1, p.2)⟩

/-- The variables of the loop of Yun's algorithm (`c` is only used to compute `d`).
Models rings/src/polynomial/factoring.rs:35-50. -/
structure YunState (α : Type) where
  factors : Factored (List α)
  f : List α
  b : List α
  d : List α
  i : Nat

/-- `c - b'`. Models rings/src/polynomial/factoring.rs:50,60. -/
def RingOps.yunD {α : Type} (S : RingOps α) (b c : List α) : List α := S.polyAdd (S.polyNeg (S.polyDerivative b)) c

/-- The body of the loop of Yun's algorithm; `sq` is `primitive_sqfree_factorize` and `pgcd` the gcd of the polynomial
structure. Models rings/src/polynomial/factoring.rs:53-60. -/
def UfdOps.yunStep (pgcd : List α → List α → Option (List α)) (sq : List α → Option (Factored (List α))) (st : YunState α) :
    Option (YunState α) := do
  let a ← pgcd st.b st.d
  let fa ← sq a
  let factors ← Factored.mul S.toFavOps.poly st.factors (fa.pow st.i)
  let f ← unwrapDiv (S.polyDiv st.f (S.toSemiRingOps.poly.natPow a st.i))
  let b ← unwrapDiv (S.polyDiv st.b a)
  let c ← unwrapDiv (S.polyDiv st.d a)
  some ⟨factors, f, b, S.yunD b c, st.i + 1⟩

/-- The loop of Yun's algorithm. Models rings/src/polynomial/factoring.rs:52-61. -/
def UfdOps.yunLoop (pgcd : List α → List α → Option (List α)) (sq : List α → Option (Factored (List α))) (st : YunState α) :
    Option (YunState α) := do
  let n ← S.polyDegree st.f
  if n ≠ 0 then
    let st' ← S.yunStep pgcd sq st
    UfdOps.yunLoop pgcd sq st'
  else some st
partial_fixpoint

/-- The state before the loop, for the primitive polynomial `f`. Models rings/src/polynomial/factoring.rs:44-50. -/
def UfdOps.yunInit (factors : Factored (List α)) (f : List α) : Option (YunState α) := do
  let f' := S.polyDerivative f
  let a ← S.polyGcdPrimSub f f'
  let b ← unwrapDiv (S.polyDiv f a)
  let c ← unwrapDiv (S.polyDiv f' a)
  some ⟨factors, f, b, S.yunD b c, 1⟩

/-- Models `factorize_using_primitive_sqfree_factorize_by_yuns_algorithm`,
rings/src/polynomial/factoring.rs:17-65. -/
def UfdOps.factorizeYun (pgcd : List α → List α → Option (List α)) (sq : List α → Option (Factored (List α))) (f : List α) :
    Option (Factored (List α)) := do
  assertThat (!S.toSemiRingOps.poly.isZero f)
  let cp ← S.polyFactorPrimitiveUnwrap f
  let cf ← S.factorUnwrap cp.1
  let st ← S.yunInit (polyConstFactored cf) cp.2
  let st' ← S.yunLoop pgcd sq st
  Factored.mul S.toFavOps.poly st'.factors (Factored.factoredUnit st'.f)

end Yun

section Kronecker
variable {α : Type} (S : UfdOps α)

/-- One turn of the sampling loop, for the point `x`. Models rings/src/polynomial/factoring.rs:177-181. -/
def UfdOps.kroneckerSample (f : List α) (x : α) : Option (List (α × Factored α)) :=
  if S.isZero (S.polyEvaluate f x) then some []
  else (S.factorUnwrap (S.polyEvaluate f x)).map fun yf => [(x, yf)]

/-- The sampling loop; `n` is the number of elements already taken from `generate_distinct_elements()`.
Models rings/src/polynomial/factoring.rs:172-182. -/
def UfdOps.kroneckerPoints (f : List α) (want : Nat) (n : Nat) (acc : List (α × Factored α)) :
    Option (List (α × Factored α)) :=
  if acc.length < want then do
    let new ← S.kroneckerSample f (S.generated n)
    UfdOps.kroneckerPoints f want (n + 1) (acc ++ new)
  else some acc
partial_fixpoint

/-- `sort_by_cached_key` (a stable sort) by the number of divisors, the first `k` entries, and then `rev()`.
Models rings/src/polynomial/factoring.rs:185-191. -/
def kroneckerSelect {α : Type} (pts : List (α × Factored α)) (k : Nat) : List (α × Factored α) :=
  ((pts.mergeSort fun a b => decide (a.2.countDivisors ≤ b.2.countDivisors)).take k).reverse

/-- The possible values at the `i`-th point. Models rings/src/polynomial/factoring.rs:193-204. -/
def UfdOps.kroneckerValues (units : List α) (i : Nat) (yf : Factored α) : List α :=
  (yf.divisors S.toFavOps).flatMap fun d => if i = 0 then [d] else units.map fun u => S.mul u d

/-- `all_possible_g_points`, as the lists of pairs which are multiplied. Models rings/src/polynomial/factoring.rs:188-213. -/
def UfdOps.kroneckerCandidates (units : List α) (pts : List (α × Factored α)) : List (List (α × α)) :=
  pts.mapIdx fun i p => (S.kroneckerValues units i p.2).map fun y => (p.1, y)

/-- The result of dividing `f` by the candidate `g`. Models rings/src/polynomial/factoring.rs:219-226. -/
def DomainOps.tryFactor {α : Type} (S : DomainOps α) (f g : List α) : Option (Option (List α × List α)) :=
  (S.polyDiv f g).bind fun r => (okOrNone r).map fun o => o.map fun h => (g, h)

/-- The test of the interpolated polynomial. Models rings/src/polynomial/factoring.rs:217-227. -/
def DomainOps.kroneckerTestPoly {α : Type} (S : DomainOps α) (f g : List α) : Option (Option (List α × List α)) :=
  (S.polyDegree g).bind fun n => if n ≥ 1 then S.tryFactor f g else some none

/-- The body of the search loop. Models rings/src/polynomial/factoring.rs:215-230. -/
def DomainOps.kroneckerTest {α : Type} (S : DomainOps α) (f : List α) (pts : List (α × α)) :
    Option (Option (List α × List α)) :=
  (S.polyInterpolateLagrange pts).bind fun r =>
    match r with
    | some g => S.kroneckerTestPoly f g
    | none => some none

/-- A loop which returns the first factorization that the test finds, `Irreducible` when there is none.
Models rings/src/polynomial/factoring.rs:209-233 and 319-338. -/
def searchFactor {α β : Type} (test : β → Option (Option (α × α))) : List β → Option (FindFactorResult α)
  | [] => some .irreducible
  | b :: bs => (test b).bind fun r =>
    match r with
    | some gh => some (.composite gh.1 gh.2)
    | none => searchFactor test bs

/-- The branch for degree other than one. Models rings/src/polynomial/factoring.rs:171-233. -/
def UfdOps.kroneckerGeneral (units : List α) (f : List α) (fDeg : Nat) : Option (FindFactorResult (List α)) := do
  let pts ← S.kroneckerPoints f (3 * (fDeg / 2 + 1)) 0 []
  searchFactor (S.kroneckerTest f)
    (Factored.multiCartesianProduct (S.kroneckerCandidates units (kroneckerSelect pts (fDeg / 2 + 1))))

/-- Models `find_factor_primitive_by_kroneckers_algorithm`, rings/src/polynomial/factoring.rs:151-235. -/
def UfdOps.kroneckerFindFactor (units : List α) (f : List α) : Option (FindFactorResult (List α)) := do
  let fDeg ← S.polyDegree f
  if fDeg = 1 then some .irreducible else S.kroneckerGeneral units f fDeg

/-- Models `factorize_by_kroneckers_method`, rings/src/polynomial/factoring.rs:237-255 (the outer `Option` is a panic). -/
def UfdOps.factorizeKronecker (pgcd : List α → List α → Option (List α)) (units : List α) (f : List α) :
    Option (Option (Factored (List α))) :=
  if S.toSemiRingOps.poly.isZero f then some none
  else (S.factorizeYun pgcd (factorizeByFindFactor S.toFavOps.poly (S.kroneckerFindFactor units)) f).map some

end Kronecker

section Fof
variable {α β : Type}

/-- The body of the loop over the factors: the accumulated unit and the new factor list.
Models rings/src/polynomial/factoring.rs:294-299. -/
def fofFactorStep (S : DomainOps α) (fromBase : β → α) (st : List α × List (List α × Nat)) (p : List β × Nat) :
    Option (List α × List (List α × Nat)) :=
  (S.fieldFav.poly.factorFavAssoc (p.1.map fromBase)).map fun ua =>
    (S.polyMul st.1 ua.1, st.2 ++ [(ua.2, p.2)])

/-- The part after the factorization of the primitive part. Models rings/src/polynomial/factoring.rs:292-304. -/
def fofFactorFinish (S : DomainOps α) (fromBase : β → α) (unit : α) (pf : Factored (List β)) :
    Option (Factored (List α)) :=
  (pf.factors.foldlM (fofFactorStep S fromBase) (pf.unit.map fromBase, [])).map fun r =>
    ⟨S.polyMul (polyConst unit) r.1, r.2⟩

/-- The `?` on the factorization of the primitive part. Models rings/src/polynomial/factoring.rs:288-305. -/
def fofFactorMatch (S : DomainOps α) (fromBase : β → α) (unit : α) :
    Option (Factored (List β)) → Option (Option (Factored (List α)))
  | none => some none
  | some pf => (fofFactorFinish S fromBase unit pf).map some

/-- Models `factorize_by_factorize_primitive_part`, rings/src/polynomial/factoring.rs:283-306; `baseFactor` is `factor` of the
polynomials over the base ring. -/
def polyFactorizeByPrimitive (S : DomainOps α) (B : GcdOps β) (fromBase : β → α) (num den : α → β)
    (baseFactor : List β → Option (Option (Factored (List β)))) (f : List α) : Option (Option (Factored (List α))) := do
  let up ← polyFactorPrimitiveFof S B fromBase num den f
  let r ← baseFactor up.2
  fofFactorMatch S fromBase up.1 r

end Fof

section All
variable {α : Type} (S : DomainOps α)

/-- The candidates of degree `d + 1`: all monic polynomials. Models rings/src/polynomial/factoring.rs:320-328. -/
def DomainOps.monicCandidates (units : List α) (d : Nat) : List (List α) :=
  (Factored.multiCartesianProduct (List.replicate (d + 1) (S.zero :: units))).map fun coeffs => coeffs ++ [S.one]

/-- Models `find_factor_by_trying_all_factors`, rings/src/polynomial/factoring.rs:313-339. -/
def DomainOps.tryAllFindFactor (units : List α) (f : List α) : Option (FindFactorResult (List α)) := do
  let fDeg ← S.polyDegree f
  searchFactor (S.tryFactor f) ((List.range (fDeg / 2)).flatMap (S.monicCandidates units))

/-- Models `factorize_by_trying_all_factors`, rings/src/polynomial/factoring.rs:341-355 (the outer `Option` is a panic). -/
def DomainOps.factorizeTryAll (units : List α) (f : List α) : Option (Option (Factored (List α))) :=
  if S.toSemiRingOps.poly.isZero f then some none
  else (factorizeByFindFactor S.fieldFav.poly (S.tryAllFindFactor units) f).map some

end All

end Verif.Rings
