import Verif.Model.Iso
import Verif.Model.ToddCoxeter
import Verif.Props.PermTable

/-!
# Isomorphism classes

Models groups/src/composition_table/iso_rep.rs and the examples of groups/src/composition_table/group.rs defined by presentations.
-/

namespace Verif.Table

open Verif.ToddCoxeter Verif.Perm Verif.Props.Perm

/-- `IsomorphismClass`; the `BTreeMap` of a direct product is an association list in key order. iso_rep.rs:7-17 -/
inductive Cls where
  | trivial
  | cyclic (n : Nat)
  | dihedral (n : Nat)
  | quaternion
  | alternating (n : Nat)
  | symmetric (n : Nat)
  | directProduct (factors : List (Cls × Nat))
  | unknown (n : Nat)

mutual
/-- derived equality — iso_rep.rs:7 -/
def Cls.beq : Cls → Cls → Bool
  | .trivial, .trivial => true
  | .cyclic n, .cyclic m => n == m
  | .dihedral n, .dihedral m => n == m
  | .quaternion, .quaternion => true
  | .alternating n, .alternating m => n == m
  | .symmetric n, .symmetric m => n == m
  | .directProduct fs, .directProduct gs => Cls.beqList fs gs
  | .unknown n, .unknown m => n == m
  | _, _ => false
/-- derived equality of the maps — iso_rep.rs:7 -/
def Cls.beqList : List (Cls × Nat) → List (Cls × Nat) → Bool
  | [], [] => true
  | (f, p) :: t, (g, q) :: u => Cls.beq f g && p == q && Cls.beqList t u
  | _, _ => false
end

/-- `dihedral_group_structure`: the presentation `⟨a, b | a², b², (ab)ⁿ⟩`; `c` is the value of the global generator counter. group.rs:433-449 -/
def dihedral (c n : Nat) : Option Grp :=
  if 1 ≤ n then do
    let (c, p, a) := Pres.addGenerator c Pres.new
    let (_, p, b) := Pres.addGenerator c p
    let p ← p.addRelation (a.pow 2)
    let p ← p.addRelation (b.pow 2)
    let p ← p.addRelation ((a.mul b).pow n)
    let G ← p.intoFiniteGroup
    some { G with isAbelian := some (decide (n ≤ 2)), isSimple := some (decide (n ≤ 1)) }
  else none

/-- `quaternion_group_structure` — group.rs:451-470 -/
def quaternion (c : Nat) : Option Grp := do
  let (c, p, a) := Pres.addGenerator c Pres.new
  let (c, p, i) := Pres.addGenerator c p
  let (c, p, j) := Pres.addGenerator c p
  let (_, p, k) := Pres.addGenerator c p
  let p ← p.addRelation (a.pow 2)
  let p ← p.addTwoSided (i.pow 2) a
  let p ← p.addTwoSided (j.pow 2) a
  let p ← p.addTwoSided (k.pow 2) a
  let p ← p.addTwoSided ((i.mul j).mul k) a
  let G ← p.intoFiniteGroup
  some { G with isAbelian := some false, isSimple := some false }

/-- The nondeterminism and environment of one call of `from_group`/`to_group`: `usize::MAX`, the hash orders, the global generator counter and the order in
which `all_permutations` lists the permutations. -/
structure Env where
  umax : Nat
  os : Nat → Oracle
  o : Oracle
  ord : Order (Finset Nat × Finset Nat)
  counter : Nat
  enum : Nat → List PermT
  counter_pos : 1 ≤ counter
  enum_ok : ∀ n, Enumerates n (enum n)

/-- `symmetric_group_structure` — group.rs:472-474 -/
noncomputable def symmetricGroup (e : Env) (n : Nat) : Option Grp := (symmetricTable (e.enum n)).map Prod.fst

/-- `alternating_group_structure` — group.rs:476-478 -/
noncomputable def alternatingGroup' (e : Env) (n : Nat) : Option Grp := (alternatingTable (e.enum n)).map Prod.fst

/-- repeat `prod_group = direct_product_structure(&factor_group, &prod_group)` -/
def prodPow (F : Grp) : Nat → Grp → Grp
  | 0, acc => acc
  | p + 1, acc => prodPow F p (directProduct F acc)

mutual
/-- `to_group`: outer `none` = panic or divergence, inner `none` = `Err`. (The same environment is used for all factors; the theorems hold for
every environment.) iso_rep.rs:147-177 -/
noncomputable def Cls.toGroup (e : Env) : Cls → Option (Option Grp)
  | .trivial => (Table.cyclic 1).map some
  | .cyclic n => (Table.cyclic n).map some
  | .dihedral n => (Table.dihedral e.counter n).map some
  | .quaternion => (Table.quaternion e.counter).map some
  | .alternating n => (alternatingGroup' e n).map some
  | .symmetric n => (symmetricGroup e n).map some
  | .directProduct fs =>
    match trivialGroup with
    | none => none
    | some t => Cls.toGroupList e fs t
  | .unknown _ => some none
/-- the loop over the factors (each repeated `power` times; a factor with power `0` is not evaluated) — iso_rep.rs:156-173 -/
noncomputable def Cls.toGroupList (e : Env) : List (Cls × Nat) → Grp → Option (Option Grp)
  | [], acc => some (some acc)
  | (f, p) :: t, acc =>
    if p = 0 then Cls.toGroupList e t acc
    else
      match Cls.toGroup e f with
      | none => none
      | some none => some none
      | some (some F) => Cls.toGroupList e t (prodPow F p acc)
end

/-- `*factors.entry(f).or_insert(0) += p`: the position of a new key is given by the key order `lt` (the derived `Ord`, of which only the fact that it
gives some position is used). iso_rep.rs:228, 232, 239, 243 -/
def entryAdd (lt : Cls → Cls → Bool) (f : Cls) (p : Nat) : List (Cls × Nat) → List (Cls × Nat)
  | [] => [(f, p)]
  | (g, q) :: t =>
    if f.beq g then (g, q + p) :: t
    else if lt f g then (f, p) :: (g, q) :: t
    else (g, q) :: entryAdd lt f p t

/-- adding all factors of a class — iso_rep.rs:225-234, 236-245 -/
def addFactors (lt : Cls → Cls → Bool) (c : Cls) (factors : List (Cls × Nat)) : List (Cls × Nat) :=
  match c with
  | .directProduct fs => fs.foldl (fun acc fp => entryAdd lt fp.1 fp.2 acc) factors
  | c => entryAdd lt c 1 factors

/-- `Mul` — iso_rep.rs:206-249 -/
def Cls.mul (lt : Cls → Cls → Bool) (a b : Cls) : Cls :=
  match a with
  | .trivial => .trivial
  | a =>
    match b with
    | .trivial => .trivial
    | b => .directProduct (addFactors lt b (addFactors lt a []))

/-- `while k_fact < n { k += 1; k_fact *= k }` — iso_rep.rs:103-108, 119-124 -/
def factLoop (n k f : Nat) : Option (Nat × Nat) :=
  if f < n then factLoop n (k + 1) (f * (k + 1)) else some (k, f)
partial_fixpoint

/-- the checks and the product for one normal subgroup: `some (some (N, Q))` if `N × G/N` is isomorphic to `G`.
iso_rep.rs:73-89 -/
def trySplit (e : Env) (G : Grp) (S : Finset Nat) : Option (Option (Grp × Grp)) :=
  if !(subsetCheck G S && isSubgroup G S && isNormalSubgroup G S) then none
  else if S.card ≠ 1 ∧ S.card ≠ G.n then do
    let N ← subgroupToGroup G S
    let Q ← quotientGroup G e.o S
    if N.checkState e.o e.ord = some true ∧ Q.checkState e.o e.ord = some true then
      match ← findIsomorphism e.umax (directProduct N Q) G e.os with
      | some _ => some (some (N, Q))
      | none => some none
    else none
  else some none

/-- the loop over the sorted normal subgroups — iso_rep.rs:69-90 -/
def splitLoop (e : Env) (G : Grp) : List (Finset Nat) → Option (Option (Grp × Grp))
  | [] => some none
  | S :: t => do
    match ← trySplit e G S with
    | some NQ => some (some NQ)
    | none => splitLoop e G t

/-- `if n == k_fact { find_isomorphism(group, &symmetric_group_structure(k)) }` — iso_rep.rs:109-116 -/
noncomputable def trySym (e : Env) (G : Grp) (k f : Nat) : Option (Option Iso) :=
  if G.n = f then (symmetricGroup e k).bind fun S => findIsomorphism e.umax G S e.os else some none

/-- `if n == half_k_fact { find_isomorphism(group, &alternating_group_structure(k)) }` — iso_rep.rs:125-132 -/
noncomputable def tryAlt (e : Env) (G : Grp) (k f : Nat) : Option (Option Iso) :=
  if G.n = f then (alternatingGroup' e k).bind fun A => findIsomorphism e.umax G A e.os else some none

/-- `if n % 2 == 0 { find_isomorphism(group, &dihedral_group_structure(n / 2)) }` — iso_rep.rs:135-142 -/
def tryDih (e : Env) (G : Grp) : Option (Option Iso) :=
  if G.n % 2 = 0 then (dihedral e.counter (G.n / 2)).bind fun D => findIsomorphism e.umax G D e.os else some none

/-- the part after the direct products — iso_rep.rs:94-144 -/
noncomputable def recognise (e : Env) (G : Grp) : Option Cls := do
  let Q8 ← quaternion e.counter
  match ← findIsomorphism e.umax G Q8 e.os with
  | some _ => some .quaternion
  | none =>
    let (k, f) ← factLoop G.n 0 1
    match ← trySym e G k f with
    | some _ => some (.symmetric k)
    | none =>
      let (k, f) ← factLoop G.n 2 1
      match ← tryAlt e G k f with
      | some _ => some (.alternating k)
      | none =>
        match ← tryDih e G with
        | some _ => some (.dihedral (G.n / 2))
        | none => some (.unknown G.n)

/-- `from_group`. `es` gives an environment for each recursive call (indexed by the call path). `none` = panic or divergence (including the failed
`debug_assert_eq!(false, group.is_abelian())`). iso_rep.rs:53-145 -/
noncomputable def fromGroup (lt : Cls → Cls → Bool) (es : List Bool → Env) (G : Grp) : Option Cls :=
  if G.n = 1 then some .trivial
  else do
    let C ← cyclic G.n
    match ← findIsomorphism (es []).umax G C (es []).os with
    | some _ => some (.cyclic G.n)
    | none =>
      let nsgs ← normalSubgroups G (es []).o (es []).ord
      match ← splitLoop (es []) G ((nsgs.map Prod.fst).mergeSort fun S T => decide (S.card ≤ T.card)) with
      | some (N, Q) =>
        let a ← fromGroup lt (fun p => es (false :: p)) N
        let b ← fromGroup lt (fun p => es (true :: p)) Q
        some (a.mul lt b)
      | none => if G.isAbelianQ then none else recognise (es []) G
partial_fixpoint

end Verif.Table
