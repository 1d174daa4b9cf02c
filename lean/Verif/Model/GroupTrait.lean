import Verif.Model.Pow
import Verif.Model.Table

/-!
# The `Group` trait

Models the provided methods of groups/src/group.rs.  A type implementing the trait is a type `T` with `identity`, `inverse` and
`compose`, passed explicitly; equality and hashing are `DecidableEq`.
-/

namespace Verif.GroupTrait

open Verif.Table

/-- `compose_list` — group.rs:35-41 -/
def composeList {T : Type} (one : T) (mul : T → T → T) (elems : List T) : T := elems.foldl mul one

/-- `nat_pow` — group.rs:43-68 -/
def natPow {T : Type} (one : T) (mul : T → T → T) (x : T) (n : Nat) : T := binPow mul one x n

/-- `int_pow` — group.rs:70-78. `unsigned_abs` is the absolute value. -/
def intPow {T : Type} (one : T) (inv : T → T) (mul : T → T → T) (x : T) (n : Int) : T :=
  if n = 0 then one
  else if n > 0 then natPow one mul x n.natAbs
  else inv (natPow one mul x (-n).natAbs)

/-- The mutable state of `generated_finite_subgroup_table`. `elem_to_idx` is the inverse of `idx_to_elem` (the two are always updated together,
group.rs:107-108) and is modelled by searching the list; `n` is its length; the stack `to_mul` has its top at the head. group.rs:90-94 -/
structure GState (T : Type) where
  elems : List T
  mul : List (List (Option Nat))
  toMul : List (Nat × Nat)

/-- the pushes `for i in 0..k { to_mul.push((i,k)); to_mul.push((k,i)) }; to_mul.push((k,k))` — group.rs:109-115 -/
def pushPairs (k : Nat) (toMul : List (Nat × Nat)) : List (Nat × Nat) :=
  (k, k) :: (List.range k).foldl (fun l i => (k, i) :: (i, k) :: l) toMul

/-- `add_elem!`: the index of the element and the new state. group.rs:96-121.
`for i in 0..k { mul[i].push(None) }` extends every row (`mul.len() = k`, asserted in the code and proved). -/
def addElem {T : Type} [DecidableEq T] (st : GState T) (e : T) : Nat × GState T :=
  if e ∈ st.elems then (st.elems.idxOf e, st)
  else
    let k := st.elems.length
    (k, { elems := st.elems ++ [e]
          mul := st.mul.map (· ++ [none]) ++ [List.replicate (k + 1) none]
          toMul := pushPairs k st.toMul })

/-- `mul[i][j] = Some(k)` after `debug_assert!(mul[i][j].is_none())`; `none` = index panic or failed assertion — group.rs:130-131 -/
def setEntry (mul : List (List (Option Nat))) (i j k : Nat) : Option (List (List (Option Nat))) :=
  match mul[i]? with
  | none => none
  | some row =>
    match row[j]? with
    | none => none
    | some (some _) => none
    | some none => some (mul.set i (row.set j (some k)))

/-- The body of the loop: `add_elem!(compose(elems[i], elems[j]))`, then the table entry. `none` = panic. group.rs:128-131 -/
def mulStep {T : Type} [DecidableEq T] (mul : T → T → T) (st : GState T) (i j : Nat) : Option (GState T) :=
  match st.elems[i]?, st.elems[j]? with
  | some a, some b =>
    let (k, st') := addElem st (mul a b)
    (setEntry st'.mul i j k).map fun m => { st' with mul := m }
  | _, _ => none

/-- `while !to_mul.is_empty()` — group.rs:127-132; `none` = panic or divergence -/
def mulLoop {T : Type} [DecidableEq T] (mul : T → T → T) (st : GState T) : Option (GState T) :=
  match st.toMul with
  | [] => some st
  | (i, j) :: t => do
    let st' ← mulStep mul { st with toMul := t } i j
    mulLoop mul st'
partial_fixpoint

/-- the final table: unwrap every entry, look up the inverses, `new_unchecked`, and the debug `check_state().unwrap()`
(`none` = panic). group.rs:134-146 -/
def finish {T : Type} [DecidableEq T] (inv : T → T) (st : GState T) : Option (Grp × List T) := do
  let ml ← st.mul.mapM fun row => row.mapM id
  let iv ← st.elems.mapM fun x => st.elems.idxOf? (inv x)
  let G : Grp := { n := st.elems.length, ident := 0, inv := iv, mul := ml }
  if G.checkCore = some true then some (G, st.elems) else none

/-- `generated_finite_subgroup_table` — group.rs:80-149 (the third component `elem_to_idx` is determined by the second) -/
def generatedTable {T : Type} [DecidableEq T] (one : T) (inv : T → T) (mul : T → T → T) (gens : List T) : Option (Grp × List T) := do
  let st0 := (addElem ⟨[], [], []⟩ one).2
  let st1 := gens.foldl (fun st g => (addElem st g).2) st0
  let st ← mulLoop mul st1
  finish inv st

/-- `generated_finite_subgroup` (the set of elements; the Rust `Vec` lists the hash set in arbitrary order) — group.rs:151-182 -/
def generatedFiniteSubgroup {T : Type} [DecidableEq T] (one : T) (mul : T → T → T) (gens : List T) : Option (Finset T) :=
  bfsLoop (fun x => gens.map fun g => mul x g) {one} [one]

end Verif.GroupTrait
