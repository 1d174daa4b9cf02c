import Verif.Model.Table

/-!
# Generating sets, homomorphisms and isomorphisms of composition tables

Models groups/src/composition_table/{generating_set,homomorphism}.rs.  Table entries are read with the total accessors `Grp.m`/`Grp.i`
(see Model/Table.lean); every other index access that could panic returns `none`.
-/

namespace Verif.Table

/-- `GeneratingSet` (the group is a parameter) — generating_set.rs:6-10 -/
structure GenSet where
  gens : List Nat
  words : List (List Nat)
deriving DecidableEq

/-- `self.elems[x].iter().map(|g| f[*g]).collect()`; `none` = index panic. -/
def wordImages (f : List Nat) (w : List Nat) : Option (List Nat) := w.mapM fun g => f[g]?

/-- `GeneratingSet::check_state`: `some true` = `Ok`, `some false` = `Err`, `none` = index panic. generating_set.rs:13-36 -/
def GenSet.check (G : Grp) (s : GenSet) : Option Bool :=
  thenO (some (s.gens.all fun g => decide (g < G.n))) <|
  thenO (some (decide (s.words.length = G.n))) <|
  allO (List.range G.n) fun x => (wordImages s.gens (s.words.getD x [])).map fun l => x == G.mulMany l

/-- The mutable state of the search: `sg`, `missing`, `gen_words` and the boundary being built. generating_set.rs:86-94 -/
structure GState where
  sg : Finset Nat
  missing : Finset Nat
  words : List (List Nat)
  bd : List Nat

/-- `if !sg.contains(&y) { sg.insert(y); missing.remove(&y); gen_words[y] = gen_words[x].clone(); gen_words[y].push(g_idx); boundary.push(y) }`
— generating_set.rs:114-120 and 127-133 -/
def GState.visit (st : GState) (x y gIdx : Nat) : GState :=
  if y ∈ st.sg then st
  else
    { sg := insert y st.sg
      missing := st.missing.erase y
      words := st.words.set y (st.words.getD x [] ++ [gIdx])
      bd := st.bd ++ [y] }

/-- `for (g_idx, g) in gens.iter().enumerate() { … }` for one boundary element — generating_set.rs:125-134 -/
def GState.visitAll (G : Grp) (gens : List Nat) (st : GState) (x : Nat) : GState :=
  gens.zipIdx.foldl (fun (st : GState) g => st.visit x (G.m x g.1) g.2) st

/-- `while boundary.len() > 0` — generating_set.rs:122-138. `st.bd` is `boundary` on entry and `next_boundary` while it is built. -/
def genInner (G : Grp) (gens : List Nat) (st : GState) : Option GState :=
  if st.bd = [] then some st
  else genInner G gens (st.bd.foldl (GState.visitAll G gens) { st with bd := [] })
partial_fixpoint

/-- `for s in sg.clone() { y = s * new_g; … }` — generating_set.rs:112-121 -/
def genFirst (G : Grp) (newG k : Nat) (st : GState) : GState :=
  (st.sg.sort (· ≤ ·)).foldl (fun (st : GState) s => st.visit s (G.m s newG) k) { st with bd := [] }

/-- `while sg.len() < self.size()`: outer `none` = divergence or panic, inner `none` = `Err(())`. `missing.iter().next().unwrap()` panics on an
empty set. generating_set.rs:95-139 -/
def genOuter (G : Grp) (o : Oracle) (maxSize : Option Nat) (gens : List Nat) (st : GState) : Option (Option GenSet) :=
  if st.sg.card < G.n then
    if maxSize = some gens.length then some none
    else if st.missing = ∅ then none
    else do
      let newG := o.pick gens.length st.missing
      let st' ← genInner G (gens ++ [newG]) (genFirst G newG gens.length st)
      genOuter G o maxSize (gens ++ [newG]) st'
  else some (some ⟨gens, st.words⟩)
partial_fixpoint

/-- `try_find_generating_set` — generating_set.rs:79-146 -/
def tryFindGeneratingSet (G : Grp) (o : Oracle) (maxSize : Option Nat) : Option (Option GenSet) :=
  genOuter G o maxSize []
    { sg := {G.ident}
      missing := (Finset.range G.n).erase G.ident
      words := List.replicate G.n []
      bd := [] }

/-- `generating_set` (`unwrap` panics on `Err`) — generating_set.rs:148-150 -/
def generatingSet (G : Grp) (o : Oracle) : Option GenSet := (tryFindGeneratingSet G o none).join

/-- one attempt of `small_generating_set`; `smallest.size() - 1` panics on underflow (debug build). generating_set.rs:157-162 -/
def smallAttempt (G : Grp) (o : Oracle) (smallest : GenSet) : Option GenSet :=
  if smallest.gens.length = 0 then none
  else (tryFindGeneratingSet G o (some (smallest.gens.length - 1))).map fun r => r.getD smallest

/-- `small_generating_set(Some(a))`; `none` = panic (`assert!(a > 0)` or underflow) or divergence. `os i` is the hash order of the `i`-th attempt.
generating_set.rs:152-166 -/
def smallGeneratingSet (G : Grp) (os : Nat → Oracle) (a : Nat) : Option GenSet :=
  if a = 0 then none
  else do
    let s ← generatingSet G (os 0)
    (List.range (a - 1)).foldlM (fun s i => smallAttempt G (os (i + 1)) s) s

/-! ## Homomorphisms (homomorphism.rs) -/

/-- `Homomorphism::check_state` (`func[x]` is in range after the length check) — homomorphism.rs:16-41 -/
def homCheck (D R : Grp) (func : List Nat) : Bool :=
  decide (func.length = D.n) &&
  ((List.range D.n).all fun x => decide (func.getD x 0 < R.n)) &&
  ((List.range D.n).all fun x => (List.range D.n).all fun y =>
    func.getD (D.m x y) 0 == R.m (func.getD x 0) (func.getD y 0))

/-- the function table `elems().map(|x| range.mul_many(..))`; `none` = index panic. generating_set.rs:60-66 -/
def homTable (D R : Grp) (s : GenSet) (f : List Nat) : Option (List Nat) :=
  (List.range D.n).mapM fun x => (wordImages f (s.words.getD x [])).map R.mulMany

/-- What `generated_homomorphism` returns: `Err`, `Ok(None)`, `Ok(Some(func))`. -/
inductive GenHom where
  | err
  | none
  | hom (func : List Nat)
deriving DecidableEq

/-- `generated_homomorphism`; `none` = panic. generating_set.rs:46-83 -/
def generatedHomomorphism (D R : Grp) (s : GenSet) (f : List Nat) : Option GenHom :=
  if f.length ≠ s.gens.length then some .err
  else if !(f.all fun x => decide (x < R.n)) then some .err
  else
    (homTable D R s f).map fun func =>
      if (List.range D.n).all fun x => s.gens.all fun g => func.getD (D.m x g) 0 == R.m (func.getD x 0) (func.getD g 0)
      then .hom func else .none

/-- `Isomorphism` (the two groups are parameters) — homomorphism.rs:83-88 -/
structure Iso where
  left : List Nat
  right : List Nat
deriving DecidableEq

/-- one step of the loop filling `inv`: `none` = index panic, `some none` = `return None`. homomorphism.rs:57-65 -/
def isoStep (func : List Nat) (inv : List (Option Nat)) (x : Nat) : Option (Option (List (Option Nat))) :=
  match func[x]? with
  | none => none
  | some y =>
    match inv[y]? with
    | none => none
    | some (some _) => some none
    | some none => some (some (inv.set y (some x)))

/-- the loop `for x in 0..n` — homomorphism.rs:57-65 -/
def isoFill (func : List Nat) : List Nat → List (Option Nat) → Option (Option (List (Option Nat)))
  | [], inv => some (some inv)
  | x :: t, inv =>
    match isoStep func inv x with
    | none => none
    | some none => some none
    | some (some inv') => isoFill func t inv'

/-- `to_isomorphism`: outer `none` = panic, inner `none` = `None` — homomorphism.rs:49-80 -/
def toIsomorphism (D R : Grp) (func : List Nat) : Option (Option Iso) :=
  if D.n ≠ R.n then some none
  else
    match isoFill func (List.range D.n) (List.replicate D.n none) with
    | none => none
    | some none => some none
    | some (some inv) => (inv.mapM id).map fun r => some ⟨func, r⟩

/-- `Isomorphism::check_state` — homomorphism.rs:93-132 -/
def Iso.check (D R : Grp) (f : Iso) : Bool :=
  homCheck D R f.left && homCheck R D f.right && decide (D.n = R.n) &&
  ((List.range D.n).all fun x => x == f.right.getD (f.left.getD x 0) 0)

/-! ## `find_isomorphism` -/

/-- `ElementProfile` — homomorphism.rs:150-153 -/
abbrev Profile := Nat × Finset Nat

/-- `ElementProfile::new`; `none` = divergence or `unwrap` panic. homomorphism.rs:156-165 -/
def profile (G : Grp) (x : Nat) : Option Profile := do
  let ord ← (G.order x).join
  let l ← (List.range G.n).mapM fun y => (G.order (G.m x y)).join
  some (ord, l.toFinset)

/-- one insertion into the `HashMap<ElementProfile, Vec<usize>>` — homomorphism.rs:178-186 -/
def profInsert (m : Profile → Option (List Nat)) (p : Profile) (x : Nat) : Profile → Option (List Nat) :=
  match m p with
  | some l => Function.update m p (some (l ++ [x]))
  | none => Function.update m p (some [x])

/-- `range_elem_profiles` — homomorphism.rs:176-187 -/
def rangeProfiles (R : Grp) : Option (Profile → Option (List Nat)) :=
  (List.range R.n).foldlM (fun m x => (profile R x).map fun p => profInsert m p x) (fun _ => none)

/-- `GenInfo` (`gen_list` is `gen_set.gens`) — homomorphism.rs:191-196 -/
structure GenInfo where
  genSet : GenSet
  options : List (List Nat)
  quant : Nat

/-- `num_to_check`: product with `checked_mul`, saturating at `usize::MAX` (the parameter `umax`) — homomorphism.rs:220-226 -/
def numToCheck (umax : Nat) (options : List (List Nat)) : Nat :=
  options.foldl (fun acc o => if acc * o.length ≤ umax then acc * o.length else umax) 1

/-- `find_new_gen_info`: outer `none` = panic, inner `none` = `Err(())`. homomorphism.rs:198-234 -/
def findNewGenInfo (umax : Nat) (D : Grp) (o : Oracle) (dprof : List Profile) (rprof : Profile → Option (List Nat)) : Option (Option GenInfo) := do
  let s ← generatingSet D o
  let ps ← s.gens.mapM fun g => dprof[g]?
  some ((ps.mapM rprof).map fun options => ⟨s, options, numToCheck umax options⟩)

/-- the images chosen by the counter; `none` = index panic — homomorphism.rs:279-283 -/
def chosenImages (info : GenInfo) (counter : List Nat) : Option (List Nat) :=
  counter.zipIdx.mapM fun p => do
    let opts ← info.options[p.2]?
    opts[p.1]?

/-- one candidate: `generated_homomorphism(..).unwrap()` then `to_isomorphism`; outer `none` = panic. homomorphism.rs:275-295 -/
def tryImages (D R : Grp) (info : GenInfo) (counter : List Nat) : Option (Option Iso) := do
  let f ← chosenImages info counter
  match ← generatedHomomorphism D R info.genSet f with
  | .err => none
  | .none => some none
  | .hom func => toIsomorphism D R func

/-- next value of the counter, `none` when it wraps around (`break 'loop_label`). `lens` are the numbers of options from position `i` on.
homomorphism.rs:299-309 -/
def nextCounter : List Nat → List Nat → Option (List Nat)
  | [], _ => none
  | _ :: _, [] => none
  | len :: lens, c :: cs =>
    if c + 1 = len then (nextCounter lens cs).map (0 :: ·) else some ((c + 1) :: cs)

/-- Result of the periodic search for a better generating set. -/
inductive Reconsider where
  | keep
  | abort
  | replace (info : GenInfo)

/-- `if already_checked % 128 == 127 {..}` — homomorphism.rs:256-272. `quant_to_check - already_checked` is truncated subtraction: without saturation it
cannot underflow (proved: `checked < quant`), and the saturated case would need `usize::MAX` iterations. -/
def reconsider (umax : Nat) (D : Grp) (o : Oracle) (dprof : List Profile) (rprof : Profile → Option (List Nat)) (info : GenInfo) (checked : Nat) :
    Option Reconsider :=
  if checked % 128 = 127 then
    (findNewGenInfo umax D o dprof rprof).map fun r =>
      match r with
      | none => .abort
      | some info' => if info'.quant < info.quant - checked then .replace info' else .keep
  else some .keep

/-- the nested search loops: outer `none` = panic or divergence, inner `none` = no isomorphism. `os` are the hash orders of the successive
searches for generating sets. homomorphism.rs:248-313 -/
def isoLoop (umax : Nat) (D R : Grp) (os : Nat → Oracle) (dprof : List Profile) (rprof : Profile → Option (List Nat)) (step : Nat)
    (info : GenInfo) (counter : List Nat) (checked : Nat) : Option (Option Iso) := do
  match ← reconsider umax D (os step) dprof rprof info checked with
  | .abort => some none
  | .replace info' => isoLoop umax D R os dprof rprof (step + 1) info' (List.replicate info'.genSet.gens.length 0) 0
  | .keep =>
    match ← tryImages D R info counter with
    | some f => some (some f)
    | none =>
      match nextCounter (info.options.map List.length) counter with
      | none => some none
      | some c' => isoLoop umax D R os dprof rprof (step + 1) info c' (checked + 1)
partial_fixpoint

/-- `find_isomorphism`: outer `none` = panic or divergence. homomorphism.rs:137-315 -/
def findIsomorphism (umax : Nat) (D R : Grp) (os : Nat → Oracle) : Option (Option Iso) :=
  if D.n ≠ R.n then some none
  else do
    let dprof ← (List.range D.n).mapM (profile D)
    let rprof ← rangeProfiles R
    match ← findNewGenInfo umax D (os 0) dprof rprof with
    | none => some none
    | some info => isoLoop umax D R os dprof rprof 1 info (List.replicate info.genSet.gens.length 0) 0

end Verif.Table
