import Verif.Model.Perm
import Verif.Model.Table

/-!
# Todd–Coxeter coset enumeration

Models groups/src/free_group/todd_coxeter.rs.  Letters: `2i` is generator `i`, `2i+1` its inverse (todd_coxeter.rs:98-102).
`Neighbor::None()` is `none`, `Neighbor::Coset(c)` is `some c` (lines 9-13).  Everywhere `none` in `Option` means panic or divergence.
-/

namespace Verif.ToddCoxeter

open Verif.Perm

/-- `SchreierGraph` — todd_coxeter.rs:15-19 -/
structure Graph where
  numGens : Nat
  idents : List Nat
  nbs : List (List (Option Nat))
deriving DecidableEq, Repr

/-- `new` — todd_coxeter.rs:22-28 -/
def Graph.new (numGens : Nat) : Graph := { numGens, idents := [], nbs := [] }

/-- `find_coset` — todd_coxeter.rs:30-35 -/
def find (idents : List Nat) (c : Nat) : Option Nat :=
  match idents[c]? with
  | none => none
  | some p => if p = c then some c else find idents p
partial_fixpoint

/-- `new_coset` — todd_coxeter.rs:37-46 -/
def newCoset (s : Graph) : Graph × Nat :=
  ({ s with idents := s.idents ++ [s.idents.length], nbs := s.nbs ++ [List.replicate (2 * s.numGens) none] }, s.idents.length)

/-- `self.neighbors[c][d]`; outer `none` = index panic. todd_coxeter.rs:59-60, 77 -/
def nb (s : Graph) (c d : Nat) : Option (Option Nat) :=
  match s.nbs[c]? with
  | none => none
  | some row => row[d]?

/-- `self.neighbors[c][d] = v` (indices are known to be in range where it is used) — todd_coxeter.rs:63, 80 -/
def setNb (s : Graph) (c d : Nat) (v : Option Nat) : Graph :=
  { s with nbs := s.nbs.set c ((s.nbs.getD c []).set d v) }

/-- `unify`: the recursive calls inside the loop over the letters are on the current state; `c1`, `c2` stay the representatives found at
the start. todd_coxeter.rs:48-73 -/
def unify (s : Graph) (c1 c2 : Nat) : Option Graph := do
  let a ← find s.idents c1
  let b ← find s.idents c2
  if a = b then some s
  else
    (List.range (2 * s.numGens)).foldlM (fun (s : Graph) d =>
      match nb s (min a b) d, nb s (max a b) d with
      | some none, some n2 => some (setNb s (min a b) d n2)
      | some (some _), some none => some s
      | some (some n1), some (some n2) => unify s n1 n2
      | _, _ => none) { s with idents := s.idents.set (max a b) (min a b) }
partial_fixpoint

/-- `follow` — todd_coxeter.rs:75-87 -/
def follow (s : Graph) (c d : Nat) : Option (Graph × Nat) := do
  let c ← find s.idents c
  match nb s c d with
  | none => none
  | some none =>
    let (s', nc) := newCoset s
    some (setNb s' c d (some nc), nc)
  | some (some nc) => (find s.idents nc).map fun r => (s, r)

/-- the loop of `follow_path` over the letters already reversed — todd_coxeter.rs:91-93 -/
def followRev (s : Graph) (c : Nat) : List Nat → Option (Graph × Nat)
  | [] => some (s, c)
  | d :: ds => do
    let (s', c') ← follow s c d
    followRev s' c' ds

/-- `follow_path` — todd_coxeter.rs:89-95 -/
def followPath (s : Graph) (c : Nat) (ds : List Nat) : Option (Graph × Nat) := do
  let c ← find s.idents c
  followRev s c ds.reverse

/-- `let end = follow_path(c, word); unify(end, c)` — todd_coxeter.rs:132-133, 141-142 -/
def trace (c : Nat) (s : Graph) (word : List Nat) : Option Graph := do
  let (s', e) ← followPath s c word
  unify s' e c

/-- `while to_visit < scg.idents.len()` — todd_coxeter.rs:136-146 -/
def visitLoop (rels : List (List Nat)) (s : Graph) (v : Nat) : Option Graph :=
  if v < s.idents.length then do
    let c ← find s.idents v
    if c = v then do
      let s' ← rels.foldlM (trace c) s
      visitLoop rels s' (v + 1)
    else visitLoop rels s (v + 1)
  else some s
partial_fixpoint

/-- `coset_index_lookup` and `cosets` — todd_coxeter.rs:153-162 -/
def indexCosets (idents : List Nat) : List (Option Nat) × List Nat :=
  idents.zipIdx.foldl (fun (st : List (Option Nat) × List Nat) ci =>
    if ci.2 = ci.1 then (st.1 ++ [some st.2.length], st.2 ++ [ci.1]) else (st.1 ++ [none], st.2)) ([], [])

/-- one entry of a permutation: `coset_index_lookup[follow(c, 2g)]`, with both panics and the `debug_assert_eq`.
If `follow` creates a coset its number is out of range of the lookup and the code panics, so the graph is unchanged afterwards and need not be
threaded. todd_coxeter.rs:170-178 -/
def permEntry (s : Graph) (lookup : List (Option Nat)) (cosets : List Nat) (d c : Nat) : Option Nat := do
  let (_, nc) ← follow s c d
  match lookup[nc]? with
  | none => none
  | some none => none
  | some (some i) => if cosets[i]? = some nc then some i else none

/-- `Permutation::new(...).unwrap()` for one generator — todd_coxeter.rs:166-182 -/
def genPerm (s : Graph) (lookup : List (Option Nat)) (cosets : List Nat) (g : Nat) : Option (List Nat) := do
  let l ← cosets.mapM (permEntry s lookup cosets (2 * g))
  Permutation.new l

/-- `full_rels` — todd_coxeter.rs:109-113 -/
def fullRels (numGens : Nat) (rels : List (List Nat)) : List (List Nat) :=
  rels ++ (List.range numGens).map fun i => [2 * i + 1, 2 * i]

/-- the letter assertions — todd_coxeter.rs:115-126 -/
def wordsOk (numGens : Nat) (ws : List (List Nat)) : Bool := ws.all fun w => w.all fun a => a < 2 * numGens

/-- the graph at the end of the enumeration — todd_coxeter.rs:128-146 -/
def enumGraph (numGens : Nat) (rels subgens : List (List Nat)) : Option Graph := do
  let (s, start) := newCoset (Graph.new numGens)
  let s' ← subgens.foldlM (trace start) s
  visitLoop rels s' 0

/-- the returned pair — todd_coxeter.rs:148-185 -/
def readOff (numGens : Nat) (s : Graph) : Option (Nat × List (List Nat)) := do
  let (lookup, cosets) := indexCosets s.idents
  let perms ← (List.range numGens).mapM (genPerm s lookup cosets)
  some (cosets.length, perms)

/-- `enumerate_cosets_impl` — todd_coxeter.rs:103-186 -/
def enumerateCosets (numGens : Nat) (rels subgens : List (List Nat)) : Option (Nat × List (List Nat)) :=
  let rels := fullRels numGens rels
  if wordsOk numGens rels && wordsOk numGens subgens then do
    let s ← enumGraph numGens rels subgens
    readOff numGens s
  else none

/-! ## `into_finite_group` -/

/-- `paths[c]` for the neighbour `c` of `b`: set it if not yet done. State: `paths` (`none` = not done) and `new_boundary`.
todd_coxeter.rs:363-369 -/
def pathStep (perms : List (List Nat)) (b : Nat) (path : List Nat) (st : List (Option (List Nat)) × List Nat) (g : Nat) :
    Option (List (Option (List Nat)) × List Nat) :=
  match perms[g]? with
  | none => none
  | some p =>
    match st.1[call p b]? with
    | none => none
    | some (some _) => some st
    | some none => some (st.1.set (call p b) (some (path ++ [g])), st.2 ++ [call p b])

/-- the loop over the generators for one boundary element (`debug_assert!(b_done)` fails = `none`) — todd_coxeter.rs:360-370 -/
def pathElem (numGens : Nat) (perms : List (List Nat)) (st : List (Option (List Nat)) × List Nat) (b : Nat) :
    Option (List (Option (List Nat)) × List Nat) :=
  match st.1[b]? with
  | some (some path) => (List.range numGens).foldlM (pathStep perms b path) st
  | _ => none

/-- `while boundary.len() > 0` — todd_coxeter.rs:356-374 -/
def pathLoop (numGens : Nat) (perms : List (List Nat)) (paths : List (Option (List Nat))) (boundary : List Nat) :
    Option (List (Option (List Nat))) :=
  if boundary = [] then some paths
  else do
    let (paths', nbd) ← boundary.foldlM (pathElem numGens perms) (paths, [])
    pathLoop numGens perms paths' nbd
partial_fixpoint

/-- apply the permutations of a path one after the other — todd_coxeter.rs:395-398, 406-412 -/
def applyPath (perms : List (List Nat)) (z : Nat) (path : List Nat) : Option Nat :=
  path.foldlM (fun z g => (perms[g]?).map fun p => call p z) z

/-- `into_finite_group` from the enumeration result on — todd_coxeter.rs:345-420 -/
def finiteGroupOf (numGens n : Nat) (perms : List (List Nat)) : Option Table.Grp := do
  let invPerms ← perms.mapM Permutation.inverse
  let paths ← pathLoop numGens perms ((List.range n).map fun i => if i = 0 then some [] else none) [0]
  let paths ← paths.mapM id
  let inv ← (List.range n).mapM fun x => applyPath invPerms 0 (paths.getD x []).reverse
  let mul ← (List.range n).mapM fun x => (List.range n).mapM fun y => do
    let z ← applyPath perms 0 (paths.getD x [])
    applyPath perms z (paths.getD y [])
  some { n := n, ident := 0, inv := inv, mul := mul }

/-- `into_finite_group` — todd_coxeter.rs:342-421. The subgroup generator list is empty. -/
def intoFiniteGroup (numGens : Nat) (rels : List (List Nat)) : Option Table.Grp := do
  let (n, perms) ← enumerateCosets numGens rels []
  finiteGroupOf numGens n perms

/-! ## The presentation builder -/

/-- `FinitelyGeneratedGroupElement` (the list `product` of signed identifiers) — todd_coxeter.rs:188-193 -/
abbrev Elem := List Int

/-- `identity` — todd_coxeter.rs:195-197 -/
def Elem.identity : Elem := []

/-- `inv` — todd_coxeter.rs:198-202 -/
def Elem.inv (x : Elem) : Elem := x.reverse.map (- ·)

/-- `pow` (the recursion `self.pow(-n).inv()` for negative `n` reaches the positive case after one step) — todd_coxeter.rs:203-219 -/
def Elem.pow (x : Elem) (n : Int) : Elem :=
  if n = 0 then Elem.identity
  else if n < 0 then Elem.inv ((List.range (-n).toNat).foldl (fun acc _ => x.foldl (fun acc a => acc ++ [a]) acc) [])
  else (List.range n.toNat).foldl (fun acc _ => x.foldl (fun acc a => acc ++ [a]) acc) []

/-- `Mul` — todd_coxeter.rs:221-232 -/
def Elem.mul (x y : Elem) : Elem := x ++ y

/-- `FinitelyGeneratedGroupPresentation`: `generators` (a `HashMap` only used by key) as an association list. todd_coxeter.rs:253-263 -/
structure Pres where
  generators : List (Nat × Nat)
  relations : List (List Nat)
deriving DecidableEq, Repr

/-- `new` — todd_coxeter.rs:266-272 -/
def Pres.new : Pres := { generators := [], relations := [] }

/-- `add_generator`; the global `COUNTER` is explicit state. Returns the new counter, the presentation and the element.
`HashMap::insert` with a fresh key is `++`. todd_coxeter.rs:274-284 -/
def Pres.addGenerator (counter : Nat) (p : Pres) : Nat × Pres × Elem :=
  (counter + 1, { p with generators := p.generators ++ [(counter, p.generators.length)] }, [(counter : Int)])

/-- one letter of `translate_generator_expression`; `none` = panic (failed assertion or unknown generator) — todd_coxeter.rs:289-311 -/
def Pres.letter (p : Pres) (ident : Int) : Option Nat :=
  if ident = 0 then none
  else
    match p.generators.lookup ident.natAbs with
    | none => none
    | some index => some (2 * index + if ident < 0 then 1 else 0)

/-- `translate_generator_expression` — todd_coxeter.rs:286-314 -/
def Pres.translate (p : Pres) (e : Elem) : Option (List Nat) := e.mapM p.letter

/-- `add_relation` — todd_coxeter.rs:316-320 -/
def Pres.addRelation (p : Pres) (rel : Elem) : Option Pres :=
  (p.translate rel).map fun w => { p with relations := p.relations ++ [w] }

/-- `add_two_sided_relation` — todd_coxeter.rs:322-325 -/
def Pres.addTwoSided (p : Pres) (rel1 rel2 : Elem) : Option Pres := p.addRelation (rel1.mul rel2.inv)

/-- `enumerate_elements` — todd_coxeter.rs:327-333 -/
def Pres.enumerateElements (p : Pres) : Option (Nat × List (List Nat)) :=
  enumerateCosets p.generators.length p.relations []

/-- `FinitelyGeneratedGroupPresentation::into_finite_group` — todd_coxeter.rs:342-421 -/
def Pres.intoFiniteGroup (p : Pres) : Option Table.Grp := Verif.ToddCoxeter.intoFiniteGroup p.generators.length p.relations

/-- `FinitelyGeneratedGroupCosetEnumerator` built by `into_coset_enumerator` and `add_subgroup_generator` calls, then `enumerate_cosets`.
todd_coxeter.rs:335-340, 424-450 -/
def Pres.enumerateCosets (p : Pres) (subgens : List Elem) : Option (Nat × List (List Nat)) := do
  let ws ← subgens.mapM p.translate
  Verif.ToddCoxeter.enumerateCosets p.generators.length p.relations ws

end Verif.ToddCoxeter
