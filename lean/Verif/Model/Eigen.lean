import Verif.Model.Lattice
import Verif.Model.Smith
import Verif.Model.Factored

/-!
# Roots in an algebraic closure, eigenvalues and eigenspaces

Models the provided methods of `AlgebraicClosureStructure`, rings/src/structure/structure.rs:916-959, and the functions on eigenvalues and
eigenspaces of rings/src/linear/matrix.rs:1669-1760. `none` is a panic (or an endless loop of a required method).
-/

namespace Verif.Rings

/-- The required methods of `AlgebraicClosureStructure` and the factoring of polynomials over the base field. Models
rings/src/structure/structure.rs:916-931. -/
structure ClosureOps (β α : Type) where
  base : DomainOps β
  inclusion : β → α
  rootsList : List β → Option (Option (List α))
  factor : List β → Option (Option (Factored (List β)))

section
variable {β α : Type} (C : ClosureOps β α)

/-- Models `all_roots_unique`, rings/src/structure/structure.rs:932-942. -/
def ClosureOps.rootsUnique (p : List β) : Option (Option (List α)) := do
  let F ← (C.factor p).bind id
  C.rootsList (F.expandSquarefree C.base.fieldFav.poly)

/-- The inner loop of `all_roots_powers`. Models rings/src/structure/structure.rs:953-955. -/
def ClosureOps.rootsOfFactor (g : List β × Nat) : Option (List (α × Nat)) :=
  ((C.rootsList g.1).bind id).map fun l => l.map fun x => (x, g.2)

/-- Models `all_roots_powers`, rings/src/structure/structure.rs:943-958. -/
def ClosureOps.rootsPowers (p : List β) : Option (Option (List (α × Nat))) := do
  match ← C.factor p with
  | none => some none
  | some F => (F.factors.mapM C.rootsOfFactor).map fun l => some l.flatten

/-- `characteristic_polynomial(mat).unwrap()`. Models rings/src/linear/matrix.rs:1679-1681. -/
def ClosureOps.charPoly (m : Mat β) : Option (List β) :=
  (C.base.characteristicPolynomial m).bind fun r => match r with
    | .ok p => some p
    | .error _ => none

/-- Models `eigenvalues_list`, rings/src/linear/matrix.rs:1675-1684. -/
def ClosureOps.eigenvaluesList (m : Mat β) : Option (List α) := do
  let p ← C.charPoly m
  (C.rootsList p).bind id

/-- Models `eigenvalues_unique`, rings/src/linear/matrix.rs:1686-1695. -/
def ClosureOps.eigenvaluesUnique (m : Mat β) : Option (List α) := do
  let p ← C.charPoly m
  (C.rootsUnique p).bind id

/-- Models `eigenvalues_powers`, rings/src/linear/matrix.rs:1697-1709. -/
def ClosureOps.eigenvaluesPowers (m : Mat β) : Option (List (α × Nat)) := do
  let p ← C.charPoly m
  (C.rootsPowers p).bind id

variable (S : BezoutOps α)

/-- `add(..).unwrap()`. Models rings/src/linear/matrix.rs:1722-1727. -/
def unwrapMatErr : Except MatErr (Mat α) → Option (Mat α)
  | .ok m => some m
  | .error _ => none

/-- Models `generalized_col_eigenspace`, rings/src/linear/matrix.rs:1711-1731. -/
def ClosureOps.generalizedColEigenspace (m : Mat β) (eigenvalue : α) (k : Nat) : Option (LinLat α) := do
  assertThat (m.rows == m.cols)
  let i ← S.toSemiRingOps.matIdent m.rows
  let s ← S.toSemiRingOps.matMulScalar i eigenvalue
  let t ← S.toRingOps.matNeg s
  let d ← (S.toSemiRingOps.matAdd (m.applyMap C.inclusion) t).bind unwrapMatErr
  let p ← S.toSemiRingOps.matNatPow d k
  S.colKernel p

/-- Models `generalized_row_eigenspace`, rings/src/linear/matrix.rs:1733-1744. -/
def ClosureOps.generalizedRowEigenspace (m : Mat β) (eigenvalue : α) (k : Nat) : Option (LinLat α) :=
  (C.generalizedColEigenspace S m.transposed eigenvalue k).bind LinLat.transpose

/-- Models `col_eigenspace`, rings/src/linear/matrix.rs:1746-1752. -/
def ClosureOps.colEigenspace (m : Mat β) (eigenvalue : α) : Option (LinLat α) := C.generalizedColEigenspace S m eigenvalue 1

/-- Models `row_eigenspace`, rings/src/linear/matrix.rs:1754-1760. -/
def ClosureOps.rowEigenspace (m : Mat β) (eigenvalue : α) : Option (LinLat α) := C.generalizedRowEigenspace S m eigenvalue 1

end

/-!
## The Jordan basis of one generalized eigenspace

The closure in the middle of `jordan_algorithm` that turns a nilpotent matrix `S` of size `m` into the bases of its Jordan blocks.
-/

section
variable {α : Type} (S : BezoutOps α)

/-- The product of two matrices, unwrapped. Models rings/src/linear/matrix.rs:1898-1900. -/
def BezoutOps.jordanImage (s b : Mat α) : Option (Mat α) := S.toSemiRingOps.matMulUnwrap s b

/-- `[v, S v, S^2 v, ..]` with `k` further images. Models rings/src/linear/matrix.rs:1896-1904. -/
def BezoutOps.jordanChain (s : Mat α) : Nat → Mat α → Option (List (Mat α))
  | 0, v => some [v]
  | k + 1, v => do
    let w ← S.jordanImage s v
    let l ← BezoutOps.jordanChain s k w
    some (v :: l)

/-- One new Jordan block: its basis, reversed, and the space accounted for. Models rings/src/linear/matrix.rs:1891-1914. -/
def BezoutOps.jordanAdd (s : Mat α) (m k : Nat) (st : LinLat α × List (List (Mat α))) (v : Mat α) : Option (LinLat α × List (List (Mat α))) := do
  let chain ← S.jordanChain s k v
  let c ← S.latFromBasis m 1 chain
  let accounted ← S.latSumPair m 1 st.1 c
  some (accounted, st.2 ++ [chain.reverse])

/-- One step `k` of the loop. Models rings/src/linear/matrix.rs:1874-1915. -/
def BezoutOps.jordanStep (s : Mat α) (m : Nat) (kers : List (LinLat α)) (st : LinLat α × List (List (Mat α))) (k : Nat) :
    Option (LinLat α × List (List (Mat α))) := do
  let k0 ← kers[k]?
  let k1 ← kers[k + 1]?
  let ext ← S.extensionBasis k0 k1
  let kerExt ← S.latFromBasis m 1 ext
  let common ← S.latIntersectPair m 1 st.1 kerExt
  let new ← S.extensionBasis common kerExt
  new.foldlM (S.jordanAdd s m k) st

/-- The powers `S^0, S^1, .., S^m`. Models rings/src/linear/matrix.rs:1847-1854. -/
def BezoutOps.jordanPowers (s : Mat α) (m : Nat) : Option (List (Mat α)) := do
  let i ← S.toSemiRingOps.matIdent m
  let rest ← (List.range (m - 1)).foldlM (fun l _ => do
    let last ← l.getLast?
    let p ← S.jordanImage last s
    some (l ++ [p])) [i, s]
  some rest

/-- The bases of the Jordan blocks of a nilpotent matrix. Models rings/src/linear/matrix.rs:1844-1923; the debug assertion that `S^m` is zero is
left out. -/
def BezoutOps.jordanBlockBases (s : Mat α) (m : Nat) : Option (List (List (Mat α))) := do
  assertThat (decide (1 ≤ m))
  let pows ← S.jordanPowers s m
  let kers ← pows.mapM S.colKernel
  let z ← S.latZero m 1
  let st ← (List.range m).reverse.foldlM (S.jordanStep s m kers) (z, [])
  some st.2

end
end Verif.Rings
