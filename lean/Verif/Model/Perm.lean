import Mathlib.Data.List.Defs

/-!
# Permutations

Models groups/src/permutation.rs (permutations of ℕ with finite support), groups/src/examples/symmetric.rs (`Permutation<N>`)
and groups/src/examples/c2.rs.  A `Vec<usize>` / `[usize; N]` is a `List Nat`.
-/

namespace Verif.Perm

/-- `C2` — groups/src/examples/c2.rs:3-7 -/
inductive C2 where
  | identity | flip
deriving DecidableEq, Repr

/-- `C2::compose_mut` — c2.rs:18-28 -/
def C2.compose (self other : C2) : C2 :=
  match other with
  | .identity => self
  | .flip => match self with
    | .identity => .flip
    | .flip => .identity

/-- `C2::inverse` — c2.rs:14-16 -/
def C2.inverse (self : C2) : C2 := self

/-- `reduced`: pop trailing fixed points. groups/src/permutation.rs:58-67.
The loop pops from the end; the recursion is on the reversed list. -/
def reducedRev : List Nat → List Nat
  | [] => []
  | x :: t => if x + 1 = (x :: t).length then reducedRev t else x :: t

/-- `reduced` — permutation.rs:58-67 -/
def reduced (perm : List Nat) : List Nat := (reducedRev perm.reverse).reverse

/-- The checks of `Permutation::new` (both variants): all entries `< n`, then all of `0..n` present.
permutation.rs:71-84, symmetric.rs:70-81 -/
def checkPerm (perm : List Nat) : Bool :=
  let n := perm.length
  if perm.all (· < n) then
    let present := perm.foldl (fun (pr : List Bool) i => pr.set i true) (List.replicate n false)
    present.all id
  else false

/-- `Permutation::new`; `none` = `Err`. permutation.rs:70-87 -/
def Permutation.new (perm : List Nat) : Option (List Nat) :=
  if checkPerm perm then some (reduced perm) else none

/-- `new_unchecked` — permutation.rs:89-93 -/
def Permutation.newUnchecked (perm : List Nat) : List Nat := reduced perm

/-- `call` — permutation.rs:99-104 -/
def call (perm : List Nat) (x : Nat) : Nat :=
  match perm[x]? with
  | some y => y
  | none => x

/-- `sign`: the double loop over `j < i < len` — permutation.rs:106-116, symmetric.rs:106-116 -/
def sign (perm : List Nat) : C2 :=
  (List.range perm.length).foldl (fun s i =>
    (List.range i).foldl (fun s j =>
      if (decide (i < j)) != (decide (call perm i < call perm j)) then s.compose .flip else s) s) .identity

/-- `inverse`: `inv_perm[j] = i` for every `(i,j)`; out of range writes panic (`none`).
permutation.rs:199-205 (without the final reduction), symmetric.rs:208-214 -/
def inverseRaw (perm : List Nat) : Option (List Nat) :=
  perm.zipIdx.foldlM (fun (inv : List Nat) (ji : Nat × Nat) =>
    if ji.1 < inv.length then some (inv.set ji.1 ji.2) else none) (List.replicate perm.length 0)

/-- `inverse` — permutation.rs:199-205 -/
def Permutation.inverse (perm : List Nat) : Option (List Nat) := (inverseRaw perm).map reduced

/-- `identity` — permutation.rs:195-197 -/
def Permutation.identity : List Nat := []

/-- `compose_refs` — permutation.rs:207-210 -/
def Permutation.compose (a b : List Nat) : List Nat :=
  reduced ((List.range (max a.length b.length)).map fun i => call a (call b i))

/-- The inner `loop` of `disjoint_cycles`: `cycle.push(i); missing.remove(i); i = perm[i]; if i == x {break}`.
`none` = panic (index) or divergence. permutation.rs:125-132, symmetric.rs:125-132.
`missing` (a `HashSet`, only used through membership, `min` and `len`) is a list without repetitions. -/
def cycleLoop (perm : List Nat) (x : Nat) (i : Nat) (cycle missing : List Nat) : Option (List Nat × List Nat) := do
  let i' ← perm[i]?
  if i' = x then some (cycle ++ [i], missing.filter (· ≠ i))
  else cycleLoop perm x i' (cycle ++ [i]) (missing.filter (· ≠ i))
partial_fixpoint

/-- The outer `while missing.len() > 0` — permutation.rs:122-137 (`keepAll = false`: only cycles of length ≥ 2 are kept) and
symmetric.rs:121-134 (`keepAll = true`). -/
def cyclesLoop (keepAll : Bool) (perm : List Nat) (missing : List Nat) (cycles : List (List Nat)) : Option (List (List Nat)) :=
  match missing.min? with
  | none => some cycles
  | some x => do
    let (cycle, missing') ← cycleLoop perm x x [] missing
    cyclesLoop keepAll perm missing' (if keepAll || decide (cycle.length ≥ 2) then cycles ++ [cycle] else cycles)
partial_fixpoint

/-- `Permutation::disjoint_cycles` — permutation.rs:118-139 -/
def disjointCycles (perm : List Nat) : Option (List (List Nat)) :=
  cyclesLoop false perm (List.range perm.length) []

/-- `Permutation::cycle_shape` (sorted lengths) — permutation.rs:141-145 -/
def cycleShape (perm : List Nat) : Option (List Nat) :=
  (disjointCycles perm).map fun cs => (cs.map List.length).mergeSort

/-- `cyc.cyc[(i + 1) % n]` in `From<Cycle>`; `none` = `% 0` or index panic. permutation.rs:43 -/
def cycNext (cyc : List Nat) (n i : Nat) : Option Nat := if n = 0 then none else cyc[(i + 1) % n]?

/-- `From<Cycle> for Permutation`; `none` = index panic or `% 0`. permutation.rs:34-46 -/
def fromCycle (cyc : List Nat) : Option (List Nat) :=
  let n := cyc.max?.getD 0
  let perm := List.range n
  ((List.range cyc.length).foldlM (fun (perm : List Nat) i => do
      let c ← cyc[i]?
      let d ← cycNext cyc n i
      if c < perm.length then some (perm.set c d) else none) perm).map reduced

/-! ## `Permutation<N>` (groups/src/examples/symmetric.rs) -/

/-- `Cycle::<N>::new`: outer `none` = panic (`present[*i]` out of range), inner `none` = `Err`. symmetric.rs:15-24 -/
def Fixed.cycleNew (N : Nat) (cyc : List Nat) : Option (Option (List Nat)) :=
  let rec go (present : List Bool) : List Nat → Option (Option (List Nat))
    | [] => some (some cyc)
    | i :: t =>
      match present[i]? with
      | none => none
      | some true => some none
      | some false => go (present.set i true) t
  go (List.replicate N false) cyc

/-- `From<Cycle<N>> for Permutation<N>`; `none` = index panic. symmetric.rs:31-43 -/
def Fixed.fromCycle (N : Nat) (cyc : List Nat) : Option (List Nat) :=
  let n := cyc.length
  (List.range n).foldlM (fun (perm : List Nat) i => do
      let c ← cyc[i]?
      let d ← cyc[(i + 1) % n]?
      if c < perm.length then some (perm.set c d) else none) (List.range N)

/-- `Permutation::<N>::new`; `none` = `Err` — symmetric.rs:68-84 -/
def Fixed.new (perm : List Nat) : Option (List Nat) := if checkPerm perm then some perm else none

/-- `call`; `none` = `Err` — symmetric.rs:99-104 -/
def Fixed.call (perm : List Nat) (x : Nat) : Option Nat := perm[x]?

/-- `identity` — symmetric.rs:200-206 -/
def Fixed.identity (N : Nat) : List Nat := List.range N

/-- `compose_refs` — symmetric.rs:216-222; `none` = index panic -/
def Fixed.compose (a b : List Nat) : Option (List Nat) := b.mapM fun i => a[i]?

/-- `inverse` — symmetric.rs:208-214 -/
def Fixed.inverse (perm : List Nat) : Option (List Nat) := inverseRaw perm

/-- `Group::compose_list` — groups/src/group.rs:34-40: `ans = identity; for e { ans = ans·e }` -/
def Fixed.composeList (N : Nat) (l : List (List Nat)) : Option (List Nat) :=
  l.foldlM Fixed.compose (Fixed.identity N)

/-- `new_from_cycles`: outer `none` = panic, inner `none` = `Err`. symmetric.rs:86-97 -/
def Fixed.newFromCycles (N : Nat) (cycles : List (List Nat)) : Option (Option (List Nat)) :=
  let rec parse : List (List Nat) → Option (Option (List (List Nat)))
    | [] => some (some [])
    | c :: t =>
      match Fixed.cycleNew N c with
      | none => none
      | some none => some none
      | some (some c') =>
        match parse t with
        | none => none
        | some none => some none
        | some (some r) => some (some (c' :: r))
  match parse cycles with
  | none => none
  | some none => some none
  | some (some cs) => do
    let ps ← cs.mapM (Fixed.fromCycle N)
    let r ← Fixed.composeList N ps
    some (some r)

/-- `disjoint_cycles` of `Permutation<N>` (keeps fixed points as 1-cycles) — symmetric.rs:118-136 -/
def Fixed.disjointCycles (perm : List Nat) : Option (List (List Nat)) :=
  cyclesLoop true perm (List.range perm.length) []

/-- `TryFrom<Permutation> for Permutation<N>`; `none` = `Err(())`. symmetric.rs:50-65 -/
def Fixed.tryFrom (N : Nat) (value : List Nat) : Option (List Nat) :=
  if N < value.length then none else some ((List.range N).map (Verif.Perm.call value))

/-- `From<Permutation<N>> for Permutation` — permutation.rs:52-56; `none` = `unwrap` panic (impossible) -/
def ofFixed (value : List Nat) : Option (List Nat) :=
  ((List.range value.length).mapM (Fixed.call value)).map reduced

/-- `iter.permutations(k)` of itertools: the arrangements of `k` elements of the list, in the lexicographic order of their positions.
Used in groups/src/permutation.rs:147-149 -/
def lexArrangements : Nat → List Nat → List (List Nat)
  | 0, _ => [[]]
  | k + 1, l => (List.range l.length).flatMap fun i => (lexArrangements k (l.eraseIdx i)).map fun p => l.getD i 0 :: p

/-- `all_permutations(n)`: `(0..n).permutations(n).map(new_unchecked)`. groups/src/permutation.rs:147-149 -/
def allPermutations (n : Nat) : List (List Nat) := (lexArrangements n (List.range n)).map Permutation.newUnchecked

end Verif.Perm
