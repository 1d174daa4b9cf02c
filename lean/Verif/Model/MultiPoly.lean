import Verif.Model.Polynomial
import Mathlib.Data.List.Sort
import Mathlib.Data.List.Dedup

/-!
# Polynomials in several variables

A `Variable` is an identifier (from a global counter, so every call of `Variable::new` gives a new one) and a name
that only matters for printing; here it is the identifier. A `Monomial` is a vector of variable powers; its
`ident_lookup` table is a function of that vector (`Monomial::new` builds it), so it is not stored here. A
`MultiPolynomial` is a vector of terms. None of the three carries an invariant in its type.

Iteration over a Rust `HashMap`/`HashSet` visits the entries in an unspecified order. `HashOrder` stands for that order:
the theorems hold for every `HashOrder`. (Simplification: one order is fixed for each list of entries; a Rust program
may use different orders for equal maps in different calls.)
-/

namespace Verif.Rings

/-- The order in which hash maps and hash sets are visited: the entries, permuted in some way. -/
structure HashOrder where
  visit : {β : Type} → List β → List β
  perm : ∀ {β : Type} (l : List β), (visit l).Perm l

/-- The order of insertion. -/
def HashOrder.insertion : HashOrder := ⟨fun l => l, fun _ => .refl _⟩

/-- The reverse order of insertion. -/
def HashOrder.reversed : HashOrder := ⟨fun l => l.reverse, fun l => List.reverse_perm l⟩

/-- `*map.entry(key).or_insert(zero) += value` on a hash map, kept as the list of its entries.
Models rings/src/polynomial/multipoly.rs:185, 188 and 482-483. -/
def addEntry {κ β : Type} [DecidableEq κ] (add : β → β → β) (zero : β) (key : κ) (val : β) : List (κ × β) → List (κ × β)
  | [] => [(key, add zero val)]
  | (k, x) :: t => if k = key then (k, add x val) :: t else (k, x) :: addEntry add zero key val t

/-- A monomial: variable powers `(ident, pow)`, "should be sorted by variable ident".
Models `Monomial`, rings/src/polynomial/multipoly.rs:48-51, and `VariablePower`, 42-45. -/
abbrev Mono : Type := List (Nat × Nat)

/-- Models `Monomial::new`, rings/src/polynomial/multipoly.rs:109-120. `sort_by_key` is a stable sort, as `insertionSort`
is. -/
def Mono.new (prod : List (Nat × Nat)) : Mono :=
  (prod.filter fun e => e.2 ≠ 0).insertionSort fun a b => a.1 ≤ b.1

/-- Models `Monomial::one`, rings/src/polynomial/multipoly.rs:122-127. -/
def Mono.one : Mono := []

/-- Models `Monomial::degree`, rings/src/polynomial/multipoly.rs:129-135. -/
def Mono.degree (m : Mono) : Nat := m.foldl (fun d e => d + e.2) 0

/-- Models `Monomial::homogenize`, rings/src/polynomial/multipoly.rs:137-149. -/
def Mono.homogenize (m : Mono) (target : Nat) (v : Nat) : Option Mono :=
  if target ≥ m.degree then some (Mono.new (m ++ [(v, target - m.degree)])) else none

/-- Models `Monomial::get_var_pow`, rings/src/polynomial/multipoly.rs:151-157. The table `ident_lookup` points to the last
entry with the identifier (115-118). -/
def Mono.getVarPow (m : Mono) (v : Nat) : Nat :=
  m.foldl (fun k e => if e.1 = v then e.2 else k) 0

/-- Models `Monomial::free_vars`, rings/src/polynomial/multipoly.rs:159-164. -/
def Mono.freeVars (m : Mono) : List Nat := (m.map Prod.fst).dedup

/-- Models `Monomial::mul`, rings/src/polynomial/multipoly.rs:181-196. -/
def Mono.mul (H : HashOrder) (a b : Mono) : Mono :=
  let prod := a.foldl (fun l e => addEntry (· + ·) 0 e.1 e.2 l) []
  let prod := b.foldl (fun l e => addEntry (· + ·) 0 e.1 e.2 l) prod
  Mono.new (H.visit prod)

/-- Models `Monomial::lexicographic_order`, rings/src/polynomial/multipoly.rs:198-222. -/
def Mono.lexCmp : Mono → Mono → Ordering
  | [], [] => .eq
  | [], _ :: _ => .gt
  | _ :: _, [] => .lt
  | (x, i) :: a, (y, j) :: b =>
    if x < y then .lt
    else if x > y then .gt
    else if i > j then .lt
    else if i < j then .gt
    else Mono.lexCmp a b

/-- Models `Monomial::graded_lexicographic_order`, rings/src/polynomial/multipoly.rs:224-232. -/
def Mono.gradedCmp (a b : Mono) : Ordering :=
  if a.degree < b.degree then .gt
  else if a.degree > b.degree then .lt
  else Mono.lexCmp a b

/-- Models `Monomial::check_invariants(..).is_ok()`, rings/src/polynomial/multipoly.rs:85-107 (the check of `ident_lookup`,
which is not stored here, is left out). -/
def Mono.checkInvariants (m : Mono) : Bool :=
  (m.all fun e => e.2 ≠ 0) && decide (m.map Prod.fst).Nodup && decide (m = m.insertionSort fun a b => a.1 ≤ b.1)

/-- A polynomial: terms `(coeff, monomial)`, "sorted by monomial ordering".
Models `MultiPolynomial`, rings/src/polynomial/multipoly.rs:252-254, and `Term`, 236-239. -/
abbrev MPoly (α : Type) : Type := List (α × Mono)

section Plain
variable {α : Type}

/-- The comparison of two terms in `MultiPolynomial::new`. Models rings/src/polynomial/multipoly.rs:281. -/
def termLe (s t : α × Mono) : Prop := Mono.lexCmp s.2 t.2 ≠ .gt

instance : DecidableRel (termLe (α := α)) := fun s t => inferInstanceAs (Decidable (Mono.lexCmp s.2 t.2 ≠ .gt))

/-- Models `MultiPolynomial::new`, rings/src/polynomial/multipoly.rs:280-283. -/
def MPoly.new (terms : List (α × Mono)) : MPoly α := terms.insertionSort termLe

/-- Models `MultiPolynomial::check_invariants(..).is_ok()`, rings/src/polynomial/multipoly.rs:257-278. The range
`0..self.terms.len() - 1` underflows (a panic, `none`) when there are no terms. -/
def MPoly.checkInvariants (p : MPoly α) : Option Bool :=
  if !(p.all fun t => Mono.checkInvariants t.2) then some false
  else if p.length = 0 then none
  else some ((p.zip p.tail).all fun st => decide (termLe st.1 st.2))

/-- Models `MultiPolynomial::constant`, rings/src/polynomial/multipoly.rs:285-292. -/
def MPoly.constant (c : α) : MPoly α := [(c, Mono.one)]

/-- Models `MultiPolynomial::free_vars`, rings/src/polynomial/multipoly.rs:298-304. -/
def MPoly.freeVars (p : MPoly α) : List Nat := (p.flatMap fun t => Mono.freeVars t.2).dedup

/-- Models `apply_map`, rings/src/polynomial/multipoly.rs:306-317. -/
def MPoly.applyMap {β : Type} (f : α → β) (p : MPoly α) : MPoly β := p.map fun t => (f t.1, t.2)

/-- The new monomial of `apply_map_vars`; a variable that is not in the map is a panic.
Models rings/src/polynomial/multipoly.rs:330-337. -/
def Mono.mapVars (f : Nat → Option Nat) (m : Mono) : Option Mono :=
  (m.mapM fun (e : Nat × Nat) => (f e.1).map fun w => (w, e.2)).map Mono.new

/-- Models `apply_map_vars`, rings/src/polynomial/multipoly.rs:319-342. -/
def MPoly.applyMapVars (f : Nat → Option Nat) (p : MPoly α) : Option (MPoly α) :=
  p.mapM fun t => (Mono.mapVars f t.2).map fun m => (t.1, m)

/-- Models `evaluate_var_zero`, rings/src/polynomial/multipoly.rs:344-352. -/
def MPoly.evaluateVarZero (p : MPoly α) (v : Nat) : MPoly α := p.filter fun t => Mono.getVarPow t.2 v = 0

/-- Models `has_all_vars_parts`, rings/src/polynomial/multipoly.rs:355-363. -/
def MPoly.hasAllVarsParts (p : MPoly α) (vars : List Nat) : MPoly α :=
  p.filter fun t => vars.all fun v => Mono.getVarPow t.2 v > 0

/-- Models `degree`, rings/src/polynomial/multipoly.rs:588-590. -/
def MPoly.degree (p : MPoly α) : Option Nat := (p.map fun t => Mono.degree t.2).max?

/-- `p_by_deg.get_mut(&deg).unwrap().push(term)`, after an empty vector has been inserted if there was none.
Models rings/src/polynomial/multipoly.rs:599-603. -/
def pushByDegree (t : α × Mono) : List (Nat × MPoly α) → List (Nat × MPoly α)
  | [] => [(Mono.degree t.2, [t])]
  | (d, l) :: rest => if d = Mono.degree t.2 then (d, l ++ [t]) :: rest else (d, l) :: pushByDegree t rest

/-- Models `split_by_degree`, rings/src/polynomial/multipoly.rs:592-609. The result is a hash map. -/
def MPoly.splitByDegree (H : HashOrder) (p : MPoly α) : List (Nat × MPoly α) :=
  H.visit (p.foldl (fun acc t => pushByDegree t acc) [])

end Plain

section Ring
variable {α : Type}

/-- Models `Monomial::evaluate`, rings/src/polynomial/multipoly.rs:166-179; a missing value is a panic. -/
def SemiRingOps.monoEvaluate (S : SemiRingOps α) (values : Nat → Option α) (m : Mono) : Option α :=
  (m.mapM fun (e : Nat × Nat) => (values e.1).map fun x => S.natPow x e.2).map S.product

/-- Models `reduce`, rings/src/polynomial/multipoly.rs:551-558. -/
def SemiRingOps.mpReduce (S : SemiRingOps α) (p : MPoly α) : MPoly α :=
  MPoly.new (p.filter fun t => !S.isZero t.1)

/-- Models `equal`, rings/src/polynomial/multipoly.rs:408-421. -/
def SemiRingOps.mpEqual (S : SemiRingOps α) (a b : MPoly α) : Bool :=
  let a := S.mpReduce a
  let b := S.mpReduce b
  if a.length ≠ b.length then false
  else (a.zip b).all fun st => S.equal st.1.1 st.2.1 && decide (st.1.2 = st.2.2)

/-- The table `existing_monomials` of `add`: the last index of each monomial.
Models rings/src/polynomial/multipoly.rs:441-451. -/
def existingMonomial (a : MPoly α) (m : Mono) : Option Nat :=
  (List.range a.length).foldl (fun found i => if (a[i]?).map Prod.snd = some m then some i else found) none

/-- One iteration of the loop of `add`, where `a0` is the polynomial the table was made from.
Models rings/src/polynomial/multipoly.rs:452-464. -/
def SemiRingOps.mpAddStep (S : SemiRingOps α) (a0 : MPoly α) (a : MPoly α) (t : α × Mono) : MPoly α :=
  match existingMonomial a0 t.2 with
  | some i => a.modify i fun s => (S.add s.1 t.1, s.2)
  | none => a ++ [t]

/-- Models `add`, rings/src/polynomial/multipoly.rs:439-466. -/
def SemiRingOps.mpAdd (S : SemiRingOps α) (a b : MPoly α) : MPoly α :=
  S.mpReduce (b.foldl (S.mpAddStep a) a)

/-- The entries of the hash map of `mul`. Models rings/src/polynomial/multipoly.rs:469-485. -/
def SemiRingOps.mpMulTable (S : SemiRingOps α) (H : HashOrder) (a b : MPoly α) : List (Mono × α) :=
  a.foldl (fun l s => b.foldl (fun l t => addEntry S.add S.zero (Mono.mul H s.2 t.2) (S.mul s.1 t.1) l) l) []

/-- Models `mul`, rings/src/polynomial/multipoly.rs:468-492. -/
def SemiRingOps.mpMul (S : SemiRingOps α) (H : HashOrder) (a b : MPoly α) : MPoly α :=
  S.mpReduce (MPoly.new ((H.visit (S.mpMulTable H a b)).map fun e => (e.2, e.1)))

/-- The semiring structure of polynomials in several variables. Models rings/src/polynomial/multipoly.rs:403-493. -/
def SemiRingOps.multi (S : SemiRingOps α) (H : HashOrder) : SemiRingOps (MPoly α) where
  equal := S.mpEqual
  zero := []
  one := [(S.one, Mono.one)]
  add := S.mpAdd
  mul := S.mpMul H

/-- The ring structure; `neg` negates every coefficient. Models rings/src/polynomial/multipoly.rs:495-513. -/
def RingOps.multi (S : RingOps α) (H : HashOrder) : RingOps (MPoly α) where
  toSemiRingOps := S.toSemiRingOps.multi H
  neg a := a.map fun t => (S.neg t.1, t.2)

/-- Models `var_pow`, rings/src/polynomial/multipoly.rs:560-567. -/
def SemiRingOps.mpVarPow (S : SemiRingOps α) (v k : Nat) : MPoly α := [(S.one, Mono.new [(v, k)])]

/-- Models `var`, rings/src/polynomial/multipoly.rs:569-571. -/
def SemiRingOps.mpVar (S : SemiRingOps α) (v : Nat) : MPoly α := S.mpVarPow v 1

/-- Models `as_constant`, rings/src/polynomial/multipoly.rs:573-586. -/
def SemiRingOps.mpAsConstant (S : SemiRingOps α) (p : MPoly α) : Option α :=
  match p with
  | [] => some S.zero
  | [(c, m)] => if m = Mono.one then some c else none
  | _ => none

/-- The branch of `homogenize` for a nonzero polynomial; the debug assertion on the invariants is a panic if it fails.
Models rings/src/polynomial/multipoly.rs:619-630. -/
def MPoly.homogenizeNonzero (p : MPoly α) (v : Nat) : Option (MPoly α) := do
  let d ← p.degree
  let terms ← p.mapM fun (t : α × Mono) => (Mono.homogenize t.2 d v).map fun m => (t.1, m)
  let ok ← (MPoly.new terms).checkInvariants
  assertThat ok
  some (MPoly.new terms)

/-- Models `homogenize`, rings/src/polynomial/multipoly.rs:611-632. -/
def SemiRingOps.mpHomogenize (S : SemiRingOps α) (p : MPoly α) (v : Nat) : Option (MPoly α) :=
  if S.mpEqual p [] then some [] else p.homogenizeNonzero v

/-- The monomial without the variable `v`. Models rings/src/polynomial/multipoly.rs:650-657. -/
def Mono.erase (m : Mono) (v : Nat) : Mono := Mono.new (m.filter fun e => e.1 ≠ v)

/-- `while coeffs.len() <= k { coeffs.push(zero) }`. Models rings/src/polynomial/multipoly.rs:642-644. -/
def padTo (coeffs : List (MPoly α)) (k : Nat) : List (MPoly α) :=
  coeffs ++ List.replicate (k + 1 - coeffs.length) []

/-- One iteration of the loop of `expand`. Models rings/src/polynomial/multipoly.rs:640-661. -/
def SemiRingOps.mpExpandStep (S : SemiRingOps α) (v : Nat) (coeffs : List (MPoly α)) (t : α × Mono) : List (MPoly α) :=
  let k := Mono.getVarPow t.2 v
  (padTo coeffs k).modify k fun c => S.mpAdd c [(t.1, Mono.erase t.2 v)]

/-- Models `expand`, rings/src/polynomial/multipoly.rs:634-663. The result is a polynomial with polynomial coefficients. -/
def SemiRingOps.mpExpand (S : SemiRingOps α) (p : MPoly α) (v : Nat) : List (MPoly α) :=
  p.foldl (S.mpExpandStep v) []

/-- Models `evaluate`, rings/src/polynomial/multipoly.rs:665-679. -/
def SemiRingOps.mpEvaluate (S : SemiRingOps α) (p : MPoly α) (values : Nat → Option α) : Option α :=
  (p.mapM fun (t : α × Mono) => (S.monoEvaluate values t.2).map fun x => S.mul t.1 x).map S.sum

end Ring

section Domain
variable {α : Type} (S : DomainOps α) (H : HashOrder)

/-- The quotient of two coefficients in `div`. Models rings/src/polynomial/multipoly.rs:531-535. -/
def constDiv {α : Type} : Option (Except DivErr α) → Option (Except DivErr (MPoly α))
  | some (.ok c) => some (.ok (MPoly.constant c))
  | some (.error .notDivisible) => some (.error .notDivisible)
  | some (.error .divideByZero) => none
  | none => none

/-- The case of two constants in `div`. Models rings/src/polynomial/multipoly.rs:521-536. -/
def DomainOps.mpDivConst (a b : MPoly α) : Option (Except DivErr (MPoly α)) := do
  assertThat (a.length ≤ 1)
  assertThat (b.length ≤ 1)
  match a, b with
  | _, [] => some (.error .divideByZero)
  | [], _ => some (.ok [])
  | s :: _, t :: _ => constDiv (S.div s.1 t.1)

/-- What `div` makes of the quotient of the expanded polynomials. Models rings/src/polynomial/multipoly.rs:542-545. -/
def DomainOps.mpDivFinish (x : Nat) :
    Option (Except DivErr (List (MPoly α))) → Option (Except DivErr (MPoly α))
  | some (.ok c) => some (.ok ((S.toSemiRingOps.multi H).polyEvaluate c (S.mpVar x)))
  | some (.error e) => some (.error e)
  | none => none

/-- Models `div`, rings/src/polynomial/multipoly.rs:516-547. The recursion goes through the division of univariate
polynomials whose coefficients are polynomials in several variables; the first argument bounds its depth (running out of
depth counts as not returning, `none`). -/
def DomainOps.mpDivDepth : Nat → MPoly α → MPoly α → Option (Except DivErr (MPoly α))
  | 0, _, _ => none
  | depth + 1, a, b =>
    match H.visit (a.freeVars ++ b.freeVars).dedup with
    | [] => S.mpDivConst a b
    | x :: _ =>
      let inner : DomainOps (MPoly α) := ⟨S.toRingOps.multi H, DomainOps.mpDivDepth depth⟩
      S.mpDivFinish H x (inner.polyDiv (S.mpExpand a x) (S.mpExpand b x))

/-- `div` with a depth of recursion that always suffices (theorem `C111_division`).
Models rings/src/polynomial/multipoly.rs:516-547. -/
def DomainOps.mpDiv (a b : MPoly α) : Option (Except DivErr (MPoly α)) :=
  S.mpDivDepth H ((a.freeVars ++ b.freeVars).dedup.length + 1) a b

/-- The structure of polynomials in several variables over an integral domain.
Models rings/src/polynomial/multipoly.rs:403-548. -/
def DomainOps.multi : DomainOps (MPoly α) where
  toRingOps := S.toRingOps.multi H
  div := S.mpDiv H

end Domain

end Verif.Rings
