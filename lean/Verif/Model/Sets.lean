/-!
# `algebraeon-sets`: partitions, subsets, combinations with removals

Models sets/src/partition.rs, sets/src/subset.rs, sets/src/combinations.rs.
-/

namespace Verif.Sets

/-! ## Integer partitions -/

/-- State of `PartitionIterator`: `rest = None` is `leaf`, `rest = Some(r)` is `node … r`. The field `min` is written but never
read in the Rust code, so it is dropped; the predicate is a parameter of the functions. sets/src/partition.rs:1-8 -/
inductive PIter where
  | leaf (n x first : Nat)
  | node (n x first : Nat) (rest : PIter)
deriving DecidableEq, Repr

/-- `PartitionIterator::new` — partition.rs:11-20 -/
def PIter.new (n x : Nat) : PIter := .leaf n x 1

/-- Forget `rest` (`self.rest = None`) and read the scalar fields. -/
def PIter.fields : PIter → Nat × Nat × Nat
  | .leaf n x f => (n, x, f)
  | .node n x f _ => (n, x, f)

/-- The box `rest`, created when absent: `if self.rest.is_none() { self.rest = Some(..) }` — partition.rs:58-67 -/
def PIter.restOrNew : PIter → PIter
  | .leaf n x f => .leaf (n - f) (x - 1) f
  | .node _ _ _ r => r

/-- `next` on an iterator whose `rest` is unchanged but whose `first` is: used in the branches that do not touch `rest`. -/
def PIter.withFirst : PIter → Nat → PIter
  | .leaf n x _, f => .leaf n x f
  | .node n x _ r, f => .node n x f r

/-- `PartitionIterator::next`; the outer `none` = diverges (shown impossible). sets/src/partition.rs:26-93 -/
def PIter.next (P : Nat → Bool) (it : PIter) : Option (Option (List Nat) × PIter) :=
  let (n, x, first) := it.fields
  if n < x then some (none, it)
  else if n = 0 ∧ x = 0 then
    if first = 1 then some (some [], it.withFirst (first + 1)) else some (none, it)
  else if n = 0 ∨ x = 0 then some (none, it)
  else if x = 1 then
    if first ≤ n then
      some (if P n then some [n] else none, it.withFirst (n + 1))
    else some (none, it)
  else if first > n then some (none, it)
  else
    let rest := it.restOrNew
    if P first = false then PIter.next P (.leaf n x (first + 1))
    else do
      let (o, rest') ← PIter.next P rest
      match o with
      | some part => some (some (first :: part), .node n x first rest')
      | none => PIter.next P (.leaf n x (first + 1))
partial_fixpoint

/-- Running an iterator until it returns `None` (what `for part in iter` / `collect` does). -/
def PIter.collect (P : Nat → Bool) (it : PIter) : Option (List (List Nat)) := do
  let (o, it') ← it.next P
  match o with
  | none => some []
  | some part => do
    let l ← PIter.collect P it'
    some (part :: l)
partial_fixpoint

/-- `predicated_partitions_sized`, collected — partition.rs:96-102 -/
def predicatedPartitionsSized (n x : Nat) (P : Nat → Bool) : Option (List (List Nat)) :=
  (PIter.new n x).collect P

/-- `predicated_partitions_sized_zero`, collected — partition.rs:104-111. The predicate is only ever called on parts `k ≥ 1`,
so `k - 1` does not underflow. -/
def predicatedPartitionsSizedZero (n x : Nat) (P : Nat → Bool) : Option (List (List Nat)) :=
  ((PIter.new (n + x) x).collect fun k => P (k - 1)).map fun l => l.map fun part => part.map (· - 1)

/-- `flat_map` of collected iterators. -/
def flatCollect (f : Nat → Option (List (List Nat))) : List Nat → Option (List (List Nat))
  | [] => some []
  | x :: t => do
    let a ← f x
    let b ← flatCollect f t
    some (a ++ b)

/-- `predicated_partitions`, collected: `(1..n+1).flat_map(..)` — partition.rs:113-118 -/
def predicatedPartitions (n : Nat) (P : Nat → Bool) : Option (List (List Nat)) :=
  flatCollect (fun x => predicatedPartitionsSized n x P) (List.range' 1 n)

/-- `partitions_sized` — partition.rs:120-122 -/
def partitionsSized (n x : Nat) := predicatedPartitionsSized n x fun _ => true
/-- `partitions_sized_zero` — partition.rs:124-126 -/
def partitionsSizedZero (n x : Nat) := predicatedPartitionsSizedZero n x fun _ => true
/-- `partitions` — partition.rs:128-130 -/
def partitions (n : Nat) := predicatedPartitions n fun _ => true

/-! ## Subsets -/

/-- `subsets` — sets/src/subset.rs:2-22 -/
def subsets (n : Nat) : Nat → List (List Nat)
  | 0 => [[]]
  | k + 1 =>
    if k + 1 > n then []
    else (List.range n).flatMap fun first =>
      (subsets (n - first - 1) k).map fun rest => first :: rest.map (fun r => r + first + 1)

/-- `subsets_vec`; `none` = index panic — subset.rs:24-29 -/
def subsetsVec {T : Type} (items : List T) (k : Nat) : Option (List (List T)) :=
  (subsets items.length k).mapM fun s => s.mapM fun idx => items[idx]?

/-! ## Combinations with removals -/

/-- `LexicographicCombinationsWithRemovals` — sets/src/combinations.rs:3-9 -/
structure Comb where
  n : Nat
  allItemsIdx : List (Option Nat)
  remaining : List Nat
  subset : List Nat
  finished : Bool
deriving DecidableEq, Repr

/-- `new` — combinations.rs:13-21 -/
def Comb.new (n k : Nat) : Comb :=
  ⟨n, (List.range n).map some, List.range n, List.range k, decide (k ≥ n)⟩

/-- The labelled block `'FIND_I`: scan `subset.iter().rev().enumerate()` for the first `s < n - i - 1`.
`none` = the subtraction underflows (debug panic); `some none` = not found. combinations.rs:82-90 -/
def findI (n : Nat) : List Nat → Nat → Option (Option Nat)
  | [], _ => some none
  | s :: t, i =>
    if n < i + 1 then none
    else if s < n - i - 1 then some (some i) else findI n t (i + 1)

/-- The update `subset[k-1-i] += 1; for j in 0..i { subset[k-i+j] = subset[k-i-1] + 1 + j }` — combinations.rs:92-97 -/
def bump (s : List Nat) (i : Nat) : List Nat :=
  let k := s.length
  let s1 := s.set (k - 1 - i) (s.getD (k - 1 - i) 0 + 1)
  (List.range i).foldl (fun s j => s.set (k - i + j) (s.getD (k - i - 1) 0 + 1 + j)) s1

/-- The value returned: `match self.finished {true => None, false => Some(subset.map(|i| remaining[i]))}`;
outer `none` = index panic. combinations.rs:72-80 -/
def Comb.out (c : Comb) : Option (Option (List Nat)) :=
  if c.finished then some none else (c.subset.mapM fun i => c.remaining[i]?).map some

/-- `next`; outer `none` = panic (index out of range or underflow). combinations.rs:69-104 -/
def Comb.next (c : Comb) : Option (Option (List Nat) × Comb) := do
  let out ← c.out
  let i ← findI c.n c.subset.reverse 0
  match i with
  | some i => some (out, { c with subset := bump c.subset i })
  | none => some (out, { c with finished := true })

/-- `while subset.any(|x| remaining[x] == a) { match self.next() {Some(_) => {}, None => break} }` — combinations.rs:31-38.
`none` = panic or divergence. -/
def Comb.skip (a : Nat) (c : Comb) : Option Comb := do
  let items ← c.subset.mapM fun i => c.remaining[i]?
  if a ∈ items then do
    let (o, c') ← c.next
    match o with
    | some _ => Comb.skip a c'
    | none => some c'
  else some c
partial_fixpoint

/-- `for i in (a+1)..len { all_items_idx[i] -= 1 if Some }` — combinations.rs:44-51. -/
def decrAfter (a : Nat) (l : List (Option Nat)) : List (Option Nat) :=
  l.zipIdx.map fun p => if a < p.2 then p.1.map (· - 1) else p.1

/-- `exclude`; `none` = panic (assertion, `unwrap`, `unreachable!`). combinations.rs:24-66 -/
def Comb.exclude (c : Comb) (a : Nat) : Option Comb :=
  match c.allItemsIdx[a]? with
  | none => none
  | some none => some c
  | some (some _) => do
    let c ← c.skip a
    if c.finished then some c
    else do
      let o ← c.allItemsIdx[a]?
      let aIdx ← o
      if aIdx ∈ c.subset ∨ c.remaining.length ≤ aIdx then none
      else some (
        { n := c.n - 1
          remaining := c.remaining.eraseIdx aIdx
          allItemsIdx := decrAfter a (c.allItemsIdx.set a none)
          subset := c.subset.map fun x => if x < aIdx then x else x - 1
          finished := c.finished } : Comb)

/-- The calls a client can make. -/
inductive CombOp where
  | next
  | exclude (a : Nat)
deriving DecidableEq, Repr

/-- Running a history of calls: the values returned by the `next` calls (`exclude` returns nothing). -/
def Comb.run : Comb → List CombOp → Option (List (Option (List Nat)))
  | _, [] => some []
  | c, .next :: t => do
    let (o, c') ← c.next
    let r ← c'.run t
    some (o :: r)
  | c, .exclude a :: t => do
    let c' ← c.exclude a
    c'.run t

end Verif.Sets
