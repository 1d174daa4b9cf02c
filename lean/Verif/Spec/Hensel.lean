import Verif.Model.Hensel
import Verif.Spec.Polynomial

/-!
# What a Hensel factorization is
-/

namespace Verif.Rings

open Polynomial

/-- `A ≡ B` modulo `m`, coefficient by coefficient. -/
def CongMod {R : Type} [CommRing R] (m : R) (A B : R[X]) : Prop := ∀ k, m ∣ A.coeff k - B.coeff k

/-- A remainder of one modulo a positive power of `p` is one. -/
def RemOne {α R : Type} [CommRing R] (S : EucOps α) (v : α → R) (p : α) : Prop :=
  ∀ m k x r, 0 < k → v m = v p ^ k → v x = 1 → S.rem x m = some r → v r = 1

/-- The tree `pr` is a factorization of `h` modulo `p ^ n`: at a leaf `h` is not constant; at a branch the leading coefficient of
`h` is not divisible by `p`, the two parts are monic, `h` is congruent to its leading coefficient times their product modulo
`p ^ n`, and `a f + b g ≡ 1` modulo `p`, modulo `p ^ n` when the Bézout coefficients are lifted. -/
def HenselProduct.Valid {α R : Type} [CommRing R] (v : α → R) (lifted : Bool) (p : R) (n : Nat) :
    List α → HenselProduct α → Prop
  | h, .leaf => 0 < (polyVal v h).natDegree
  | h, .branch f fp g gp a b =>
    ¬ p ∣ (polyVal v h).leadingCoeff ∧ (polyVal v f).Monic ∧ (polyVal v g).Monic ∧
    CongMod (p ^ n) (polyVal v h) (C (polyVal v h).leadingCoeff * polyVal v f * polyVal v g) ∧
    CongMod p (polyVal v a * polyVal v f + polyVal v b * polyVal v g) 1 ∧
    (lifted = true → CongMod (p ^ n) (polyVal v a * polyVal v f + polyVal v b * polyVal v g) 1) ∧
    HenselProduct.Valid v lifted p n f fp ∧ HenselProduct.Valid v lifted p n g gp

/-- A Hensel factorization that is in order. -/
structure HenselFact.Valid {α R : Type} [CommRing R] (v : α → R) (lifted : Bool) (t : HenselFact α) : Prop where
  irreducible : Irreducible (v t.i)
  pos : 0 < t.n
  tree : t.prod.Valid v lifted (v t.i) t.n t.h

end Verif.Rings
