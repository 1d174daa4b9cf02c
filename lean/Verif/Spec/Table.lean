import Verif.Model.Table
import Mathlib.Algebra.Group.Subgroup.Lattice
import Mathlib.Data.Fintype.Basic
import Mathlib.Algebra.Group.Conj

/-!
# Specification for composition tables

`IsGroup G` says that the raw tables satisfy the textbook group axioms on `{0,…,n-1}`.  For such a table, `VGrp.Elem` is the carrier
`Fin n` with the Mathlib `Group` structure given by the table, so that properties can be stated with Mathlib's notions
(`Subgroup.closure`, `IsConj`, `orderOf`, `MulEquiv`, …).
-/

namespace Verif.Table

/-- The tables have the right shape and satisfy the group axioms on `{0..n-1}`. -/
structure IsGroup (G : Grp) : Prop where
  ident_lt : G.ident < G.n
  inv_len : G.inv.length = G.n
  mul_len : G.mul.length = G.n
  row_len : ∀ r ∈ G.mul, r.length = G.n
  inv_lt : ∀ x, x < G.n → G.i x < G.n
  mul_lt : ∀ x y, x < G.n → y < G.n → G.m x y < G.n
  mul_one : ∀ x, x < G.n → G.m x G.ident = x
  one_mul : ∀ x, x < G.n → G.m G.ident x = x
  inv_mul : ∀ x, x < G.n → G.m (G.i x) x = G.ident
  mul_inv : ∀ x, x < G.n → G.m x (G.i x) = G.ident
  assoc : ∀ x y z, x < G.n → y < G.n → z < G.n → G.m x (G.m y z) = G.m (G.m x y) z

/-- A table together with the fact that it is a group. -/
structure VGrp where
  g : Grp
  ok : IsGroup g

/-- The carrier `{0,…,n-1}`. -/
def VGrp.Elem (G : VGrp) : Type := Fin G.g.n

instance (G : VGrp) : DecidableEq G.Elem := inferInstanceAs (DecidableEq (Fin G.g.n))
instance (G : VGrp) : Fintype G.Elem := inferInstanceAs (Fintype (Fin G.g.n))

/-- the index of an element -/
def VGrp.Elem.idx {G : VGrp} (x : G.Elem) : Nat := Fin.val x

/-- the element with index `x` -/
def VGrp.el (G : VGrp) (x : Nat) (h : x < G.g.n) : G.Elem := (⟨x, h⟩ : Fin G.g.n)

/-- The group structure read off the tables. -/
instance (G : VGrp) : Group G.Elem where
  mul x y := G.el (G.g.m x.idx y.idx) (G.ok.mul_lt _ _ x.isLt y.isLt)
  one := G.el G.g.ident G.ok.ident_lt
  inv x := G.el (G.g.i x.idx) (G.ok.inv_lt _ x.isLt)
  mul_assoc x y z := Fin.ext (G.ok.assoc _ _ _ x.isLt y.isLt z.isLt).symm
  one_mul x := Fin.ext (G.ok.one_mul _ x.isLt)
  mul_one x := Fin.ext (G.ok.mul_one _ x.isLt)
  inv_mul_cancel x := Fin.ext (G.ok.inv_mul _ x.isLt)

/-- The set of elements whose indices lie in `S`. -/
def VGrp.toSet (G : VGrp) (S : Finset Nat) : Set G.Elem := {x | x.idx ∈ S}

/-- `S` is exactly the set of indices of the elements of `H`. -/
def VGrp.Denotes (G : VGrp) (S : Finset Nat) (H : Set G.Elem) : Prop :=
  (∀ x ∈ S, x < G.g.n) ∧ ∀ x : G.Elem, x.idx ∈ S ↔ x ∈ H

/-- spec: `s` is a partition of `{0..n-1}` into non-empty blocks with the right lookup -/
structure IsPart (n : Nat) (s : PState) : Prop where
  nonempty : ∀ c ∈ s.classes, c.Nonempty
  disj : s.classes.Pairwise Disjoint
  cover : ∀ x, (∃ c ∈ s.classes, x ∈ c) ↔ x < n
  len : s.lookup.length = n
  look : ∀ x, x < n → ∃ c, s.classes[s.lookup.getD x 0]? = some c ∧ x ∈ c

/-- the given sets are a partition of `{0..n-1}` into non-empty blocks -/
def SetPartition (n : Nat) (cs : List (Finset Nat)) : Prop :=
  (∀ c ∈ cs, c.Nonempty) ∧ cs.Pairwise Disjoint ∧ ∀ x, (∃ c ∈ cs, x ∈ c) ↔ x < n

/-- `s` is a valid partition of the elements of `G` whose blocks are the classes of the relation `r`. -/
def VGrp.PartitionBy (G : VGrp) (s : PState) (r : G.Elem → G.Elem → Prop) : Prop :=
  IsPart G.g.n s ∧ ∀ x y : G.Elem, s.lookup.getD x.idx 0 = s.lookup.getD y.idx 0 ↔ r x y

/-- If conjugacy classes are cached then the cache is right. (A group made by `Group::new` has no cache.) -/
def VGrp.ConjCacheOk (G : VGrp) : Prop := ∀ s, G.g.conj = some s → G.PartitionBy s IsConj

end Verif.Table
