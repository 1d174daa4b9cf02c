import Verif.Model.ToddCoxeter
import Mathlib.GroupTheory.PresentedGroup
import Mathlib.GroupTheory.Index

/-!
# Specification for coset enumeration

The presented group is Mathlib's `PresentedGroup`; a word is a list of letters, `2i` standing for generator `i` and `2i+1` for its inverse.
-/

namespace Verif.ToddCoxeter

/-- The value of a letter when generator `i` has value `x i`. -/
def letterVal {G : Type*} [Group G] {n : Nat} (x : Fin n → G) (d : Nat) : G :=
  if h : d / 2 < n then (if d % 2 = 0 then x ⟨d / 2, h⟩ else (x ⟨d / 2, h⟩)⁻¹) else 1

/-- The value of a word: the product of the values of its letters. -/
def wordVal {G : Type*} [Group G] {n : Nat} (x : Fin n → G) (w : List Nat) : G := (w.map (letterVal x)).prod

/-- The group with `n` generators and the given relators. -/
abbrev PresGroup (n : Nat) (rels : List (List Nat)) : Type :=
  PresentedGroup {r : FreeGroup (Fin n) | ∃ w ∈ rels, r = wordVal FreeGroup.of w}

/-- Its generators. -/
def PresGroup.gen {n : Nat} {rels : List (List Nat)} (i : Fin n) : PresGroup n rels := PresentedGroup.of i

/-- The subgroup generated by the given words. -/
def PresGroup.sub {n : Nat} (rels subs : List (List Nat)) : Subgroup (PresGroup n rels) :=
  Subgroup.closure {x | ∃ w ∈ subs, x = wordVal PresGroup.gen w}

/-- The value of a user-level group element when the generator with identifier `i` has value `v i`. -/
def elemVal {G : Type*} [Group G] (v : Nat → G) (e : Elem) : G :=
  (e.map fun i => if i < 0 then (v i.natAbs)⁻¹ else v i.natAbs).prod

/-- The group elements a user can build (the field `product` is private). -/
inductive Elem.Built : Elem → Prop
  | gen (counter : Nat) (p : Pres) : 1 ≤ counter → Built (Pres.addGenerator counter p).2.2
  | identity : Built Elem.identity
  | mul (x y : Elem) : Built x → Built y → Built (x.mul y)
  | inv (x : Elem) : Built x → Built x.inv
  | pow (x : Elem) (n : Int) : Built x → Built (x.pow n)

/-- The presentations a user can build, together with the current value of the global generator counter. -/
inductive Pres.Built : Nat → Pres → Prop
  | new (counter : Nat) : 1 ≤ counter → Built counter Pres.new
  | gen (counter : Nat) (p : Pres) : Built counter p → Built (p.addGenerator counter).1 (p.addGenerator counter).2.1
  | other (counter counter' : Nat) (p : Pres) : Built counter p → counter ≤ counter' → Built counter' p
  | rel (counter : Nat) (p p' : Pres) (e : Elem) : Built counter p → p.addRelation e = some p' → Built counter p'

/-- `v` gives the identifier of the `i`-th generator added to `p` the value `x i`. -/
def Pres.Assigns {G : Type*} (p : Pres) (x : Fin p.generators.length → G) (v : Nat → G) : Prop :=
  ∀ i : Fin p.generators.length, v (p.generators[i].1) = x i

end Verif.ToddCoxeter
