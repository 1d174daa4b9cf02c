import Verif.Model.IsoRep
import Verif.Spec.Iso
import Mathlib.GroupTheory.SpecificGroups.Dihedral
import Mathlib.GroupTheory.SpecificGroups.Quaternion
import Mathlib.GroupTheory.SpecificGroups.Alternating
import Mathlib.Data.ZMod.Basic

/-!
# Specification: what an isomorphism class means, in terms of Mathlib's groups
-/

namespace Verif.Table

/-- The group `H` belongs to the class `c`. -/
inductive Cls.Means : Cls → (H : Type) → [Group H] → Prop
  | trivial (H : Type) [Group H] : Subsingleton H → Means .trivial H
  | cyclic (n : Nat) (H : Type) [Group H] : 1 ≤ n → H ≃* Multiplicative (ZMod n) → Means (.cyclic n) H
  | dihedral (n : Nat) (H : Type) [Group H] : 1 ≤ n → H ≃* DihedralGroup n → Means (.dihedral n) H
  | quaternion (H : Type) [Group H] : H ≃* QuaternionGroup 2 → Means .quaternion H
  | alternating (n : Nat) (H : Type) [Group H] : H ≃* alternatingGroup (Fin n) → Means (.alternating n) H
  | symmetric (n : Nat) (H : Type) [Group H] : H ≃* Equiv.Perm (Fin n) → Means (.symmetric n) H
  | prodNil (H : Type) [Group H] : Subsingleton H → Means (.directProduct []) H
  | prodZero (f : Cls) (t : List (Cls × Nat)) (H : Type) [Group H] : Means (.directProduct t) H → Means (.directProduct ((f, 0) :: t)) H
  | prodSucc (f : Cls) (p : Nat) (t : List (Cls × Nat)) (A B H : Type) [Group A] [Group B] [Group H] :
      Means f A → Means (.directProduct ((f, p) :: t)) B → H ≃* A × B → Means (.directProduct ((f, p + 1) :: t)) H
  | unknown (n : Nat) (H : Type) [Group H] : Nat.card H = n → Means (.unknown n) H

/-- No `Unknown` inside: the class determines the group. -/
inductive Cls.Known : Cls → Prop
  | trivial : Known .trivial
  | cyclic (n : Nat) : Known (.cyclic n)
  | dihedral (n : Nat) : Known (.dihedral n)
  | quaternion : Known .quaternion
  | alternating (n : Nat) : Known (.alternating n)
  | symmetric (n : Nat) : Known (.symmetric n)
  | prodNil : Known (.directProduct [])
  | prodCons (f : Cls) (p : Nat) (t : List (Cls × Nat)) : Known f → Known (.directProduct t) → Known (.directProduct ((f, p) :: t))

/-- The table `G` is a group isomorphic to `H`. -/
def Grp.IsoTo (G : Grp) (H : Type) [Group H] : Prop := ∃ h : IsGroup G, Nonempty ((VGrp.mk G h).Elem ≃* H)

end Verif.Table
