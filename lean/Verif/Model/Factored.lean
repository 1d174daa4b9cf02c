import Verif.Model.Numbers

/-!
# Factored ring elements
-/

namespace Verif.Rings

/-- Models `Factored` (without the ring pointer, which is passed to every function),
rings/src/structure/factorization.rs:9-14. -/
structure Factored (α : Type) where
  unit : α
  factors : List (α × Nat)

namespace Factored
variable {α : Type} (S : FavOps α)

/-- Models `make_squarefree`, rings/src/structure/factorization.rs:76-87. -/
def makeSquarefree (f : Factored α) : Factored α := ⟨S.one, f.factors.map fun p => (p.1, 1)⟩

/-- Models `expand`, rings/src/structure/factorization.rs:89-95. -/
def expand (f : Factored α) : α := f.factors.foldl (fun ans p => S.mul ans (S.natPow p.1 p.2)) f.unit

/-- Models `expand_squarefree`, rings/src/structure/factorization.rs:97-99. -/
def expandSquarefree (f : Factored α) : α := (f.makeSquarefree S).expand S

/-- Models `equal`, rings/src/structure/factorization.rs:109-148 (the debug assertions, which only check that the
factors are favourite associates, are omitted). -/
def equal (a b : Factored α) : Bool :=
  S.equal a.unit b.unit
    && a.factors.all (fun p => b.factors.any fun q => S.equal p.1 q.1)
    && b.factors.all (fun q => a.factors.any fun p => S.equal p.1 q.1)
    && a.factors.all (fun p => b.factors.all fun q => !(S.equal p.1 q.1) || p.2 == q.2)

/-- Models `factors_list`, rings/src/structure/factorization.rs:162-172. -/
def factorsList (f : Factored α) : List α := f.factors.flatMap fun p => List.replicate p.2 p.1

/-- Models `is_irreducible`, rings/src/structure/factorization.rs:178-186. -/
def isIrreducible (f : Factored α) : Bool :=
  match f.factors with
  | [p] => p.2 == 1
  | _ => false

/-- `Some v` when `div(p, q)` and `div(q, p)` both succeed with units; both divisions are evaluated.
Models the `match` and `if` of rings/src/structure/factorization.rs:190-192. -/
def assocUnits (u v : Except DivErr α) : Option (Option α) :=
  match u, v with
  | .ok u, .ok v => do
    let bu ← S.isUnit u
    if bu then
      let bv ← S.isUnit v
      some (if bv then some v else none)
    else some none
  | _, _ => some none

/-- One iteration of the loop of `mul_by_unchecked`: the comparison of `p` with `q`.
Models rings/src/structure/factorization.rs:190-192. -/
def compareFactor (p q : α) : Option (Option α) := do
  let u ← S.div p q
  let v ← S.div q p
  assocUnits S u v

/-- The loop of `mul_by_unchecked` over the remaining factors; returns the new unit and the new factors.
Models rings/src/structure/factorization.rs:189-203. -/
def mulByLoop (p : α) (k : Nat) (unit : α) : List (α × Nat) → Option (α × List (α × Nat))
  | [] => some (unit, [(p, k)])
  | (q, t) :: rest =>
    (compareFactor S p q).bind fun c =>
      match c with
      | some v => some (S.mul unit (S.natPow v k), (q, t + k) :: rest)
      | none => (mulByLoop p k unit rest).map fun r => (r.1, (q, t) :: r.2)

/-- Models `mul_by_unchecked`, rings/src/structure/factorization.rs:188-204. -/
def mulByUnchecked (f : Factored α) (p : α) (k : Nat) : Option (Factored α) :=
  (mulByLoop S p k f.unit f.factors).map fun r => ⟨r.1, r.2⟩

/-- Models `mul` and `mul_mut`, rings/src/structure/factorization.rs:206-220. -/
def mul (a b : Factored α) : Option (Factored α) :=
  b.factors.foldlM (fun f p => mulByUnchecked S f p.1 p.2) ⟨S.mul a.unit b.unit, a.factors⟩

/-- Models `pow`, rings/src/structure/factorization.rs:222-227. -/
def pow (f : Factored α) (k : Nat) : Factored α := ⟨f.unit, f.factors.map fun p => (p.1, p.2 * k)⟩

/-- Models `factored_one`, rings/src/structure/factorization.rs:229-235. -/
def factoredOne : Factored α := ⟨S.one, []⟩

/-- Models `factored_irreducible_unchecked`, rings/src/structure/factorization.rs:237-244. -/
def factoredIrreducible (elem : α) : Option (Factored α) :=
  (S.factorFavAssoc elem).map fun p => ⟨p.1, [(p.2, 1)]⟩

/-- Models `factored_irreducible_power_unchecked`, rings/src/structure/factorization.rs:246-254 (without the debug
assertion `k >= 1`). -/
def factoredIrreduciblePower (elem : α) (k : Nat) : Option (Factored α) :=
  (S.factorFavAssoc elem).map fun p => ⟨p.1, [(p.2, k)]⟩

/-- Models `factored_unit_unchecked`, rings/src/structure/factorization.rs:256-262. -/
def factoredUnit (u : α) : Factored α := ⟨u, []⟩

/-- The loop building the powers `1, p, …, p^k` of one factor; `n` iterations remain.
Models rings/src/structure/factorization.rs:274-279. -/
def powersLoop (p : α) : Nat → α → List α
  | 0, _ => []
  | n + 1, pw => pw :: powersLoop p n (S.mul pw p)

/-- `itertools::multi_cartesian_product` (an external library): all choices of one entry per list, the last
list varying fastest. -/
def multiCartesianProduct {α : Type} : List (List α) → List (List α)
  | [] => [[]]
  | l :: ls => l.flatMap fun x => (multiCartesianProduct ls).map (x :: ·)

/-- Models `divisors`, rings/src/structure/factorization.rs:264-292. -/
def divisors (f : Factored α) : List α :=
  match f.factors with
  | [] => [S.one]
  | _ => (multiCartesianProduct (f.factors.map fun p => powersLoop S p.1 (p.2 + 1) S.one)).map S.product

/-- Models `count_divisors`, rings/src/structure/factorization.rs:294-300. -/
def countDivisors (f : Factored α) : Nat := f.factors.foldl (fun c p => c * (p.2 + 1)) 1

/-- The check of one factor in `check_invariants`; `irr` is the structure's `is_irreducible`.
Models rings/src/structure/factorization.rs:40-49. -/
def checkFactor (irr : α → Option Bool) (p : α × Nat) : Option Bool :=
  if p.2 = 0 then some false
  else (S.isFavAssoc p.1).bind fun b => if b then irr p.1 else some false

/-- The loop of `check_invariants`. Models rings/src/structure/factorization.rs:39-55 (the counting loop at lines
51-54 has no effect). -/
def checkFactors (irr : α → Option Bool) : List (α × Nat) → Option Bool
  | [] => some true
  | p :: ps => (checkFactor S irr p).bind fun b => if b then checkFactors irr ps else some false

/-- Models `check_invariants` (`true` is `Ok`), rings/src/structure/factorization.rs:36-57. -/
def checkInvariants (irr : α → Option Bool) (f : Factored α) : Option Bool :=
  (S.isUnit f.unit).bind fun b => if b then checkFactors S irr f.factors else some false

end Factored

/-- Models `UniqueFactorizationStructure::is_irreducible`, with `factor` given,
rings/src/structure/structure.rs:384-389. -/
def isIrreducibleBy {α : Type} (factor : α → Option (Option (Factored α))) (a : α) : Option Bool :=
  (factor a).map fun r => match r with
    | none => false
    | some f => f.isIrreducible

/-- Models `FindFactorResult`, rings/src/structure/factorization.rs:303-307. -/
inductive FindFactorResult (α : Type)
  | irreducible
  | composite (g h : α)


/-- Models `factorize_by_find_factor`, rings/src/structure/factorization.rs:309-331, with its first debug assertion.
`partialFactor` may panic. -/
def factorizeByFindFactor {α : Type} (S : FavOps α) (partialFactor : α → Option (FindFactorResult α)) (elem : α) :
    Option (Factored α) := do
  assertThat (!S.isZero elem)
  let u ← S.isUnit elem
  if u then some (Factored.factoredUnit elem)
  else
    let r ← partialFactor elem
    match r with
    | .composite g h => do
      let fg ← factorizeByFindFactor S partialFactor g
      let fh ← factorizeByFindFactor S partialFactor h
      Factored.mul S fg fh
    | .irreducible => Factored.factoredIrreducible S elem
partial_fixpoint

/-- Models `factor` of a field, rings/src/structure/structure.rs:666-678. -/
def fieldFactor {α : Type} (S : FavOps α) (a : α) : Option (Option (Factored α)) :=
  some (if S.isZero a then none else some ⟨a, []⟩)

/-- Models `factor` of the integers, rings/src/number/integer/mod.rs:85-107; `factor(..).unwrap()` of the absolute
value is the natural number factorization, whose entries come in an arbitrary (hash map) order. -/
def intFactor (isPrime : Nat → Option Bool) (a : Int) : Option (Option (Factored Int)) :=
  if a = 0 then some none
  else (Natural.factor isPrime a.natAbs).bind fun r => r.map fun f =>
    some ⟨if a < 0 then -1 else 1, f.map fun pk => ((pk.1 : Int), pk.2)⟩

end Verif.Rings
