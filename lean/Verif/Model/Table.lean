import Mathlib.Data.Finset.Sort
import Mathlib.Data.Finset.Range
import Mathlib.Data.Finset.Lattice.Fold

/-!
# Composition-table groups

Models groups/src/composition_table/*.rs.  A `Group` is the record of its tables.  `BTreeSet<usize>`/`HashSet<usize>` are
`Finset Nat`; iteration over a `BTreeSet` is iteration over the sorted list of its elements, the element `iter().next()` of a
`HashSet` is chosen by an arbitrary oracle.  Loops whose termination is a theorem rather than obvious are
`partial_fixpoint`s in `Option` (`none` = diverges or panics).
-/

namespace Verif.Table

/-- `PartitionState` — partition.rs:6-10 -/
structure PState where
  classes : List (Finset Nat)
  lookup : List Nat
deriving DecidableEq

/-- `Group` — group.rs:12-20 -/
structure Grp where
  n : Nat
  ident : Nat
  inv : List Nat
  mul : List (List Nat)
  conj : Option PState := none
  isAbelian : Option Bool := none
  isSimple : Option Bool := none
deriving DecidableEq

/-- `self.mul[x][y]` with bounds checks (`none` = index panic) — group.rs:145-147 -/
def Grp.mul? (G : Grp) (x y : Nat) : Option Nat := do
  let row ← G.mul[x]?
  row[y]?

/-- `self.inv[x]` with bounds check — group.rs:149-151 -/
def Grp.inv? (G : Grp) (x : Nat) : Option Nat := G.inv[x]?

/-- `mul(x,y)` without the bounds check (0 where Rust would panic): used in the algorithms below, which only ever index a checked
group with in-range elements (proved: `Grp.mul?_eq`). group.rs:145-147 -/
def Grp.m (G : Grp) (x y : Nat) : Nat := (G.mul.getD x []).getD y 0

/-- `inv(x)` without the bounds check — group.rs:149-151 -/
def Grp.i (G : Grp) (x : Nat) : Nat := G.inv.getD x 0

/-- a `for` loop that returns `Err` at the first failing element; `none` = panic in the body -/
def allO {α : Type} : List α → (α → Option Bool) → Option Bool
  | [], _ => some true
  | x :: t, f =>
    match f x with
    | none => none
    | some false => some false
    | some true => allO t f

/-- `if !cond {return Err}` followed by the rest -/
def thenO (a : Option Bool) (b : Option Bool) : Option Bool :=
  match a with
  | none => none
  | some false => some false
  | some true => b

/-- `a == b` where evaluating an operand may panic -/
def eqO (a b : Option Nat) : Option Bool :=
  match a, b with
  | some x, some y => some (x == y)
  | _, _ => none

/-- The part of `check_state` up to the cached data: `some true` = `Ok`, `some false` = `Err`, `none` = panic. group.rs:23-72 -/
def Grp.checkCore (G : Grp) : Option Bool :=
  thenO (some (decide (G.ident < G.n))) <|
  thenO (some (decide (G.inv.length = G.n))) <|
  thenO (allO G.inv fun x => some (decide (x < G.n))) <|
  thenO (some (decide (G.mul.length = G.n))) <|
  thenO (allO G.mul fun m => thenO (some (decide (m.length = G.n))) (allO m fun x => some (decide (x < G.n)))) <|
  thenO (allO (List.range G.n) fun x => thenO (eqO (some x) (G.mul? x G.ident)) (eqO (some x) (G.mul? G.ident x))) <|
  thenO (allO (List.range G.n) fun x =>
    thenO (eqO (some G.ident) (do let i ← G.inv? x; G.mul? i x)) (eqO (some G.ident) (do let i ← G.inv? x; G.mul? x i))) <|
  allO (List.range G.n) fun x => allO (List.range G.n) fun y => allO (List.range G.n) fun z =>
    eqO (do let a ← G.mul? y z; G.mul? x a) (do let a ← G.mul? x y; G.mul? a z)

/-- `Group::new` — group.rs:105-124: outer `none` = panic, inner `none` = `Err`. With no cached data `check_state` is `checkCore`. -/
def Grp.new (n ident : Nat) (inv : List Nat) (mul : List (List Nat)) : Option (Option Grp) :=
  let G : Grp := { n, ident, inv, mul }
  match G.checkCore with
  | none => none
  | some true => some (some G)
  | some false => some none

/-- `from_raw_model_unchecked`; `none` = a missing key panics. `idx_map` is filled in order, so a later duplicate wins.
group.rs:170-207 -/
def Grp.fromRaw {T : Type} [DecidableEq T] (elems : List T) (ident : T) (inv : T → T) (mul : T → T → T)
    (isAbelian isSimple : Option Bool) : Option Grp :=
  let idx : T → Option Nat := elems.zipIdx.foldl (fun f (xi : T × Nat) => fun t => if t = xi.1 then some xi.2 else f t) (fun _ => none)
  do
    let e ← idx ident
    let iv ← elems.mapM fun x => idx (inv x)
    let ml ← elems.mapM fun x => elems.mapM fun y => idx (mul x y)
    some { n := elems.length, ident := e, inv := iv, mul := ml, isAbelian := isAbelian, isSimple := isSimple }

/-- `mul_many` — group.rs:217-226 -/
def Grp.mulMany (G : Grp) : List Nat → Nat
  | [] => G.ident
  | x :: t => t.foldl G.m x

/-- the loop of `order`: `while y != ident { y = x*y; ord += 1 }` — group.rs:234-238 -/
def Grp.orderLoop (G : Grp) (x y ord : Nat) : Option Nat :=
  if y = G.ident then some ord else Grp.orderLoop G x (G.m x y) (ord + 1)
partial_fixpoint

/-- `order`: outer `none` = divergence, inner `none` = `Err(())` — group.rs:228-240 -/
def Grp.order (G : Grp) (x : Nat) : Option (Option Nat) :=
  if x < G.n then (G.orderLoop x x 1).map some else some none

/-- `compute_is_abelian` — group.rs:242-251 -/
def Grp.computeIsAbelian (G : Grp) : Bool :=
  (List.range G.n).all fun x => (List.range x).all fun y => G.m x y == G.m y x

/-- `is_abelian` — group.rs:253-262 -/
def Grp.isAbelianQ (G : Grp) : Bool :=
  match G.isAbelian with
  | some f => f
  | none => G.computeIsAbelian

/-- A hash-set choice oracle: at step `k`, `iter().next()` on a non-empty set returns some element of it. -/
structure Oracle where
  pick : Nat → Finset Nat → Nat
  mem : ∀ k s, s.Nonempty → pick k s ∈ s

/-- The common loop of `compute_conjugacy_classes` (group.rs:268-279), `left_cosets` (subgroup.rs:82-90) and `right_cosets` (subgroup.rs:101-109):
pick an unclassified element, compute its class, remove the class and record its index. `step` counts iterations (for the oracle). -/
def classLoop (o : Oracle) (cls : Nat → Finset Nat) (step : Nat) (missing : Finset Nat) (classes : List (Finset Nat)) (lookup : List Nat) :
    Option PState :=
  if missing = ∅ then some ⟨classes, lookup⟩
  else
    let c := cls (o.pick step missing)
    classLoop o cls (step + 1) (missing \ c) (classes ++ [c])
      ((c.sort (· ≤ ·)).foldl (fun (l : List Nat) y => l.set y classes.length) lookup)
partial_fixpoint

/-- `compute_conjugacy_classes` — group.rs:264-281; the class of `x` is `{ g x g⁻¹ }` -/
def Grp.computeConj (G : Grp) (o : Oracle) : Option PState :=
  classLoop o (fun x => (Finset.range G.n).image fun g => G.m (G.m g x) (G.i g)) 0 (Finset.range G.n) [] (List.replicate G.n 0)

/-- `conjugacy_classes` (the state) — group.rs:298-306 -/
def Grp.conjClasses (G : Grp) (o : Oracle) : Option PState :=
  match G.conj with
  | some s => some s
  | none => G.computeConj o

/-- `PartitionState::project`; ∅ where Rust would panic — partition.rs:50-52 -/
def PState.project (s : PState) (x : Nat) : Finset Nat := s.classes.getD (s.lookup.getD x 0) ∅

/-- `conjugacy_class`: outer `none` = divergence, inner `none` = `Err` — group.rs:287-296 (always recomputes the cache) -/
def Grp.conjClass (G : Grp) (o : Oracle) (x : Nat) : Option (Option (Finset Nat)) :=
  if x < G.n then (G.computeConj o).map fun s => some (s.project x) else some none

/-! ## Subsets (subset.rs) -/

/-- `Subset::check_state` — subset.rs:14-22 -/
def subsetCheck (G : Grp) (S : Finset Nat) : Bool := decide (∀ x ∈ S, x < G.n)

/-- `Subset::add_elem`; `none` = `Err` — subset.rs:40-48 -/
def addElem (G : Grp) (S : Finset Nat) (x : Nat) : Option (Finset Nat) :=
  if x ∈ S then some S else if x < G.n then some (insert x S) else none

/-- `left_mul`; `none` = `Err` — subset.rs:50-58 -/
def leftMul (G : Grp) (S : Finset Nat) (g : Nat) : Option (Finset Nat) :=
  if g < G.n then some (S.image fun h => G.m g h) else none

/-- `right_mul`; `none` = `Err` — subset.rs:60-68 -/
def rightMul (G : Grp) (S : Finset Nat) (g : Nat) : Option (Finset Nat) :=
  if g < G.n then some (S.image fun h => G.m h g) else none

/-- `is_subgroup` — subset.rs:70-79 -/
def isSubgroup (G : Grp) (S : Finset Nat) : Bool := decide (∀ x ∈ S, ∀ y ∈ S, G.m x y ∈ S)

/-- One insertion of the breadth-first closures: `if !sg.contains(y) { sg.insert(y); next_boundary.push(y) }` -/
def bfsInsert {α : Type} [DecidableEq α] (st : Finset α × List α) (y : α) : Finset α × List α :=
  if y ∈ st.1 then st else (insert y st.1, st.2 ++ [y])

/-- The breadth-first closure loop: subset.rs:103-116 (`generated_subgroup`, `next x = [x*g | g ∈ gens]`), subset.rs:139-153
(`normal_closure`, `next x = [y | g ∈ gens, y ∈ class(x*g)]`) and groups/src/group.rs:158-173 (`generated_finite_subgroup`). -/
def bfsLoop {α : Type} [DecidableEq α] (next : α → List α) (sg : Finset α) (boundary : List α) : Option (Finset α) :=
  if boundary = [] then some sg
  else
    let st := boundary.foldl (fun st x => (next x).foldl bfsInsert st) (sg, [])
    bfsLoop next st.1 st.2
partial_fixpoint

/-- `generated_subgroup`: outer `none` = divergence, inner `none` = `Err` — subset.rs:90-123 -/
def generatedSubgroup (G : Grp) (S : Finset Nat) : Option (Option (Finset Nat)) :=
  if subsetCheck G S then
    (bfsLoop (fun x => (S.sort (· ≤ ·)).map fun g => G.m x g) {G.ident} [G.ident]).map some
  else some none

/-- `normal_closure`: outer `none` = divergence, inner `none` = `Err` — subset.rs:125-161 -/
def normalClosure (G : Grp) (o : Oracle) (S : Finset Nat) : Option (Option (Finset Nat)) :=
  if subsetCheck G S then do
    let c ← G.conjClasses o
    let r ← bfsLoop (fun x => (S.sort (· ≤ ·)).flatMap fun g => (c.project (G.m x g)).sort (· ≤ ·)) {G.ident} [G.ident]
    some (some r)
  else some none

/-! ## Subgroups (subgroup.rs, normal_subgroup.rs) -/

/-- `left_cosets` — subgroup.rs:78-95; `none` = divergence. (`left_mul(g).unwrap()` cannot fail: `g` comes from `0..n`.) -/
def leftCosets (G : Grp) (o : Oracle) (S : Finset Nat) : Option PState :=
  classLoop o (fun g => S.image fun h => G.m g h) 0 (Finset.range G.n) [] (List.replicate G.n 0)

/-- `right_cosets` — subgroup.rs:97-114 -/
def rightCosets (G : Grp) (o : Oracle) (S : Finset Nat) : Option PState :=
  classLoop o (fun g => S.image fun h => G.m h g) 0 (Finset.range G.n) [] (List.replicate G.n 0)

/-- `is_normal_subgroup` — subgroup.rs:116-132 -/
def isNormalSubgroup (G : Grp) (S : Finset Nat) : Bool :=
  decide (∀ x ∈ S, ∀ g ∈ Finset.range G.n, G.m (G.m g x) (G.i g) ∈ S)

/-- `Subgroup::to_group`; `none` = `unwrap` panic — subgroup.rs:49-76 -/
def subgroupToGroup (G : Grp) (S : Finset Nat) : Option Grp :=
  let sg := S.sort (· ≤ ·)
  let back : List (Option Nat) := sg.zipIdx.foldl (fun (l : List (Option Nat)) xi => l.set xi.1 (some xi.2)) (List.replicate G.n none)
  do
    let e ← back.getD G.ident none
    let iv ← sg.mapM fun x => back.getD (G.i x) none
    let ml ← sg.mapM fun x => sg.mapM fun y => back.getD (G.m x y) none
    some { n := S.card, ident := e, inv := iv, mul := ml }

/-! ## Partitions (partition.rs) -/

/-- the accumulation of `accounted_elems`; `none` = `Err` — partition.rs:15-26 -/
def accountLoop : List (Finset Nat) → Finset Nat → Option (Finset Nat)
  | [], acc => some acc
  | c :: t, acc =>
    if c.card = 0 then none
    else
      match (c.sort (· ≤ ·)).foldlM (fun (a : Finset Nat) x => if x ∈ a then none else some (insert x a)) acc with
      | none => none
      | some acc' => accountLoop t acc'

/-- `PartitionState::check_state` — partition.rs:13-44 (`group` enters only through its size `n`) -/
def PState.check (n : Nat) (s : PState) : Bool :=
  match accountLoop s.classes ∅ with
  | none => false
  | some acc =>
    if acc.card ≠ n then false
    else if s.lookup.length ≠ n then false
    else s.lookup.zipIdx.all fun ci => decide (ci.1 < s.classes.length) && decide (ci.2 ∈ s.classes.getD ci.1 ∅)

/-- body of the loop of `Partition::eq`; `none` = `return false` — partition.rs:77-88 -/
def PState.eqStep (a b : PState) (f : List (Option Nat)) (i : Nat) : Option (List (Option Nat)) :=
  match f.getD (a.lookup.getD i 0) none with
  | some e => if e ≠ b.lookup.getD i 0 then none else some f
  | none => some (f.set (a.lookup.getD i 0) (some (b.lookup.getD i 0)))

/-- `Partition::eq` for two partitions of the same group object (of size `gsize`) — partition.rs:62-90;
`std::ptr::eq` is assumed true (two different group objects are never equal). -/
def PState.eq (gsize : Nat) (a b : PState) : Bool :=
  if a.classes.length ≠ b.classes.length then false
  else ((List.range gsize).foldlM (PState.eqStep a b) (List.replicate a.classes.length (none : Option Nat))).isSome

/-- `Partition::from_subsets`; `none` = `Err` — partition.rs:136-159 -/
def PState.fromSubsets (n : Nat) (subsets : List (Finset Nat)) : Option PState :=
  let lk := subsets.zipIdx.foldlM (fun (l : List Nat) (ci : Finset Nat × Nat) =>
    (ci.1.sort (· ≤ ·)).foldlM (fun (l : List Nat) x => if x < n then some (l.set x ci.2) else none) l) (List.replicate n 0)
  match lk with
  | none => none
  | some lookup => if PState.check n ⟨subsets, lookup⟩ then some ⟨subsets, lookup⟩ else none

/-- `is_left_cosets`: `none` = divergence — partition.rs:110-119 -/
def isLeftCosets (G : Grp) (o : Oracle) (s : PState) : Option Bool :=
  let S := s.project G.ident
  if isSubgroup G S then (leftCosets G o S).map fun c => PState.eq G.n c s else some false

/-- `is_right_cosets` — partition.rs:121-130 -/
def isRightCosets (G : Grp) (o : Oracle) (s : PState) : Option Bool :=
  let S := s.project G.ident
  if isSubgroup G S then (rightCosets G o S).map fun c => PState.eq G.n c s else some false

/-- `is_congruence` (`&&` short-circuits) — partition.rs:132-134 -/
def isCongruence (G : Grp) (o₁ o₂ : Oracle) (s : PState) : Option Bool :=
  match isLeftCosets G o₁ s with
  | some true => isRightCosets G o₂ s
  | r => r

/-- the smallest element of a class (`iter().next().unwrap()`; 0 where Rust would panic on an empty class) -/
def firstElem (c : Finset Nat) : Nat := (c.sort (· ≤ ·)).headD 0

/-- `Congruence::quotient_group` — partition.rs:186-219 -/
def quotientOf (G : Grp) (s : PState) : Grp :=
  let n := s.classes.length
  { n := n
    ident := s.lookup.getD G.ident 0
    inv := (List.range n).map fun a => s.lookup.getD (G.i (firstElem (s.classes.getD a ∅))) 0
    mul := (List.range n).map fun a => (List.range n).map fun b =>
      s.lookup.getD (G.m (firstElem (s.classes.getD a ∅)) (firstElem (s.classes.getD b ∅))) 0 }

/-- `NormalSubgroup::quotient_group` — normal_subgroup.rs:41-49 -/
def quotientGroup (G : Grp) (o : Oracle) (S : Finset Nat) : Option Grp := (leftCosets G o S).map (quotientOf G)

/-! ## Products and examples (group.rs) -/

/-- `direct_product_structure` — group.rs:376-407 -/
def directProduct (A B : Grp) : Grp :=
  let m := A.n
  { n := m * B.n
    ident := A.ident + B.ident * m
    inv := (List.range (m * B.n)).map fun x => A.i (x % m) + B.i (x / m) * m
    mul := (List.range (m * B.n)).map fun x => (List.range (m * B.n)).map fun y =>
      A.m (x % m) (y % m) + B.m (x / m) (y / m) * m }

/-- `cyclic_group_structure`; `none` = panic — group.rs:418-427 -/
def cyclic (n : Nat) : Option Grp :=
  Grp.fromRaw (List.range n) 0 (fun x => (n - x) % n) (fun x y => (x + y) % n) (some true) none

/-- `trivial_group_structure` — group.rs:414-416 -/
def trivialGroup : Option Grp := cyclic 1

/-- `klein_four_structure` — group.rs:429-431 -/
def kleinFour : Option Grp := do
  let a ← cyclic 2
  let b ← cyclic 2
  some (directProduct a b)

/-! ## All subgroups (group.rs:308-374) -/

/-- Iteration order of a `HashMap`: an arbitrary rearrangement at each step. -/
structure Order (α : Type) where
  arrange : Nat → List α → List α
  perm : ∀ k l, (arrange k l).Perm l

/-- `HashMap::insert` on an association list (replaces an existing key) -/
def mapInsert (m : List (Finset Nat × Finset Nat)) (k v : Finset Nat) : List (Finset Nat × Finset Nat) :=
  if k ∈ m.map Prod.fst then m.map (fun p => if p.1 = k then (k, v) else p) else m ++ [(k, v)]

/-- First phase of `subgroups_impl`: one generator for each cyclic subgroup. `cl` is `generated_subgroup`/`normal_closure` after `unwrap`.
group.rs:312-325 -/
def cyclicPhase (cl : Finset Nat → Option (Finset Nat)) (n : Nat) : Option (List Nat × List (Finset Nat × Finset Nat)) :=
  (List.range n).foldlM (fun (st : List Nat × List (Finset Nat × Finset Nat)) x => do
    let sg ← cl {x}
    if sg ∈ st.2.map Prod.fst then some st else some (st.1 ++ [x], mapInsert st.2 sg {x})) ([], [])

/-- One step of the second phase: extend `gens` by each distinguished generator. `add_elem(..).unwrap()` cannot fail (generators are `< n`).
group.rs:335-353. The rayon `par_iter().map().collect()` is a `map` preserving the order. -/
def extendStep (cl : Finset Nat → Option (Finset Nat)) (dgens : List Nat) (gens : Finset Nat)
    (st : List (Finset Nat × Finset Nat) × List (Finset Nat × Finset Nat)) :
    Option (List (Finset Nat × Finset Nat) × List (Finset Nat × Finset Nat)) :=
  dgens.foldlM (fun st d => do
    let newSg ← cl (insert d gens)
    if newSg ∈ st.1.map Prod.fst then some st
    else some (mapInsert st.1 newSg (insert d gens), mapInsert st.2 newSg (insert d gens))) st

/-- `while boundary.len() > 0` — group.rs:333-357; state: `subgroups`, `boundary` -/
def subgroupsLoop (ord : Order (Finset Nat × Finset Nat)) (cl : Finset Nat → Option (Finset Nat)) (dgens : List Nat) (step : Nat)
    (subgroups boundary : List (Finset Nat × Finset Nat)) : Option (List (Finset Nat × Finset Nat)) :=
  if boundary = [] then some subgroups
  else do
    let st ← (ord.arrange step boundary).foldlM (fun st p => extendStep cl dgens p.2 st) (subgroups, [])
    subgroupsLoop ord cl dgens (step + 1) st.1 st.2
partial_fixpoint

/-- `subgroups_impl` — group.rs:308-362 -/
def subgroupsImpl (ord : Order (Finset Nat × Finset Nat)) (cl : Finset Nat → Option (Finset Nat)) (n : Nat) :
    Option (List (Finset Nat × Finset Nat)) := do
  let (dgens, subgroups) ← cyclicPhase cl n
  subgroupsLoop ord cl dgens 0 subgroups subgroups

/-- `subgroups` — group.rs:364-366 -/
def subgroups (G : Grp) (ord : Order (Finset Nat × Finset Nat)) : Option (List (Finset Nat × Finset Nat)) :=
  subgroupsImpl ord (fun S => (generatedSubgroup G S).join) G.n

/-- `normal_subgroups` — group.rs:368-373. Every inner call of `normal_closure` uses the same oracle; its result is proved not to depend on it. -/
def normalSubgroups (G : Grp) (o : Oracle) (ord : Order (Finset Nat × Finset Nat)) : Option (List (Finset Nat × Finset Nat)) :=
  subgroupsImpl ord (fun S => (normalClosure G o S).join) G.n

/-- The whole of `check_state`: `none` = panic or divergence (a wrong conjugacy cache panics through `unwrap`). group.rs:23-103 -/
def Grp.checkState (G : Grp) (o : Oracle) (ord : Order (Finset Nat × Finset Nat)) : Option Bool :=
  thenO G.checkCore <|
  thenO (match G.isAbelian with
    | some f => some (f == G.computeIsAbelian)
    | none => some true) <|
  thenO (match G.conj with
    | some s => if s.check G.n then some true else none
    | none => some true) <|
  match G.isSimple with
  | some f => (normalSubgroups G o ord).map fun l => (decide (l.length = 2)) == f
  | none => some true

end Verif.Table
