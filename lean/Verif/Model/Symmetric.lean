import Verif.Model.MultiPoly
import Verif.Model.Sets

/-!
# Symmetric polynomials

Models rings/src/polynomial/symmetric.rs. Variables and polynomials are as in `Verif.Model.MultiPoly`. `Variable::new` takes
its identifier from a global counter; here the value of the counter is the argument `counter`.
-/

namespace Verif.Rings

/-- The permutations `is_symmetric` tries: a generating set of the symmetric group.
Models rings/src/polynomial/symmetric.rs:51-83. -/
def symGenerators (n : Nat) : List (List Nat) :=
  let swap := (List.range n).map fun i => if i = 0 then 1 else if i = 1 then 0 else i
  if n = 0 then []
  else if n = 1 then [[0]]
  else if n = 2 then [swap]
  else [swap, (List.range n).map fun i => (i + 1) % n]

/-- Looking up a key in a hash map collected from a list of pairs: of two pairs with the same key the later one counts. -/
def lookupLast {β : Type} (l : List (Nat × β)) (x : Nat) : Option β := (l.reverse.find? fun e => e.1 = x).map Prod.snd

/-- The pairs of the map of variables of one permutation. Models rings/src/polynomial/symmetric.rs:86-91. -/
def symVarsMap (vars perm : List Nat) : Option (List (Nat × Nat)) :=
  perm.zipIdx.mapM fun (e : Nat × Nat) => do
    let x ← vars[e.2]?
    let y ← vars[e.1]?
    some (x, y)

section
variable {α : Type}

/-- `perms.into_iter().all(..)`. Models rings/src/polynomial/symmetric.rs:85-93. -/
def SemiRingOps.symCheck (S : SemiRingOps α) (vars : List Nat) (p : MPoly α) : List (List Nat) → Option Bool
  | [] => some true
  | perm :: perms => do
    let f ← symVarsMap vars perm
    let q ← p.applyMapVars (lookupLast f)
    if S.mpEqual p q then S.symCheck vars p perms else some false

/-- Models `is_symmetric`, rings/src/polynomial/symmetric.rs:37-94. -/
def SemiRingOps.mpIsSymmetric (S : SemiRingOps α) (vars : List Nat) (p : MPoly α) : Option Bool :=
  if p.freeVars.all fun x => vars.contains x then S.symCheck vars p (symGenerators vars.length) else some false

/-- The product of the variables of one subset. Models rings/src/polynomial/symmetric.rs:104-107. -/
def SemiRingOps.mpVarsProduct (S : SemiRingOps α) (H : HashOrder) (vs : List Nat) : MPoly α :=
  vs.foldl (fun p x => (S.multi H).mul p (S.mpVar x)) (S.multi H).one

/-- Models `elementary_symmetric`, rings/src/polynomial/symmetric.rs:96-111. -/
def SemiRingOps.mpElementarySymmetric (S : SemiRingOps α) (H : HashOrder) (n : Nat) (vars : List Nat) : Option (MPoly α) :=
  (Sets.subsetsVec vars n).map fun l => l.foldl (fun e vs => (S.multi H).add e (S.mpVarsProduct H vs)) (S.multi H).zero

/-- The values `e_1, .., e_k` for the variables `e[0], .., e[k - 1]`.
Models rings/src/polynomial/symmetric.rs:134-136 and 210-212. -/
def SemiRingOps.symValues (S : SemiRingOps α) (H : HashOrder) (e vars : List Nat) (k : Nat) : Option (List (Nat × MPoly α)) :=
  (List.range k).mapM fun i => do
    let x ← e[i]?
    let y ← S.mpElementarySymmetric H (i + 1) vars
    some (x, y)

variable (S : DomainOps α) (H : HashOrder)

/-- Models `as_elementary_symmetric_polynomials_homogeneous_impl`, rings/src/polynomial/symmetric.rs:113-165. The function
`impl` it calls back is the argument `impl`. -/
def DomainOps.symHom (impl : List Nat → MPoly α → Option (MPoly α)) (vars : List Nat) (p : MPoly α) (e : List Nat) :
    Option (MPoly α) := do
  let last ← vars.getLast?
  let rSym ← impl vars.dropLast (p.evaluateVarZero last)
  let values ← S.symValues H e vars vars.dropLast.length
  let r ← (S.toSemiRingOps.multi H).mpEvaluate (rSym.applyMap MPoly.constant) (lookupLast values)
  let q := (S.toRingOps.multi H).add p ((S.toRingOps.multi H).neg r)
  let en := (S.toSemiRingOps.multi H).product (vars.map fun x => S.mpVar x)
  let x ← e[vars.length - 1]?
  let quotient ← unwrapDiv (S.mpDiv H q en)
  let qSym ← impl vars quotient
  some ((S.toRingOps.multi H).add rSym ((S.toRingOps.multi H).mul (S.mpVar x) qSym))

/-- Models `as_elementary_symmetric_polynomials_impl`, rings/src/polynomial/symmetric.rs:167-185. The first argument bounds
the depth of the recursion (running out of depth counts as not returning, `none`). -/
def DomainOps.symImpl : Nat → List Nat → MPoly α → List Nat → Option (MPoly α)
  | 0, _, _, _ => none
  | depth + 1, vars, p, e =>
    (p.splitByDegree H).foldlM (fun (total : MPoly α) (part : Nat × MPoly α) =>
      if part.1 = 0 then some ((S.toRingOps.multi H).add total part.2)
      else (S.symHom H (fun vars p => DomainOps.symImpl depth vars p e) vars part.2 e).map ((S.toRingOps.multi H).add total))
      (S.toRingOps.multi H).zero

/-- Models `as_elementary_symmetric_polynomials_unchecked`, rings/src/polynomial/symmetric.rs:188-218, including the final
check (a debug assertion). -/
def DomainOps.symUnchecked (depth counter : Nat) (vars : List Nat) (p : MPoly α) : Option (List Nat × MPoly α) := do
  let e := List.range' counter vars.length
  let sym ← S.symImpl H depth vars p e
  let values ← S.symValues H e vars e.length
  let check ← (S.toSemiRingOps.multi H).mpEvaluate (sym.applyMap MPoly.constant) (lookupLast values)
  assertThat (S.mpEqual p check)
  some (e, sym)

/-- A depth of recursion that always suffices: one more than the number of variables plus the degree. -/
def symDepth (vars : List Nat) (p : MPoly α) : Nat := vars.length + p.degree.getD 0 + 1

/-- Models `as_elementary_symmetric_polynomials`, rings/src/polynomial/symmetric.rs:221-231: `some none` stands for `None`. -/
def DomainOps.symExpress (counter : Nat) (vars : List Nat) (p : MPoly α) : Option (Option (List Nat × MPoly α)) := do
  let sym ← S.mpIsSymmetric vars p
  if sym then (S.symUnchecked H (symDepth vars p) counter vars p).map some else some none

end

end Verif.Rings
