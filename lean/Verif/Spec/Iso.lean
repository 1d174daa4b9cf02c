import Verif.Spec.Table
import Verif.Model.Iso

/-!
# Specification for generating sets, homomorphisms and isomorphisms
-/

namespace Verif.Table

/-- The table `func` lists the values of the function `φ`. -/
def Tabulates {D R : VGrp} (func : List Nat) (φ : D.Elem → R.Elem) : Prop :=
  func.length = D.g.n ∧ ∀ x : D.Elem, func[x.idx]? = some (φ x).idx

/-- The `i`-th generator, as a group element. -/
def VGrp.IsGen (G : VGrp) (s : GenSet) (i : Nat) (x : G.Elem) : Prop := s.gens[i]? = some x.idx

/-- `s` is a generating set: all generators are elements, and for each element the stored word evaluates to it. -/
def VGrp.WordsOk (G : VGrp) (s : GenSet) : Prop :=
  (∀ g ∈ s.gens, g < G.g.n) ∧ s.words.length = G.g.n ∧
  ∀ x : G.Elem, ∃ w, s.words[x.idx]? = some w ∧ ∃ l : List G.Elem, List.Forall₂ (G.IsGen s) w l ∧ l.prod = x

/-- The values of type `GeneratingSet` that the API can build (its fields are private). -/
inductive GenSet.Built (G : VGrp) : GenSet → Prop
  | generatingSet (o : Oracle) (s : GenSet) : Verif.Table.generatingSet G.g o = some s → Built G s
  | small (os : Nat → Oracle) (a : Nat) (s : GenSet) : smallGeneratingSet G.g os a = some s → Built G s

/-- `f` represents the isomorphism `φ`. -/
def Iso.Represents {D R : VGrp} (f : Iso) (φ : D.Elem ≃* R.Elem) : Prop :=
  Tabulates f.left φ ∧ Tabulates f.right φ.symm

end Verif.Table
