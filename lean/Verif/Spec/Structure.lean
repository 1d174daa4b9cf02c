import Verif.Model.Factored
import Mathlib.Algebra.GroupWithZero.Associated
import Mathlib.Algebra.Ring.Basic
import Mathlib.RingTheory.UniqueFactorizationDomain.Basic

/-!
# What it means for a structure to present a ring

`S.Models v` says that the dictionary `S` on representatives of type `α` presents the Mathlib ring `R`, where `v`
sends a representative to the element it denotes.
-/

namespace Verif.Rings

/-- `S` presents the semiring `R`: equality is decided, operations are respected, every element is denoted. -/
structure SemiRingOps.Models {α R : Type} [Semiring R] (S : SemiRingOps α) (v : α → R) : Prop where
  equal : ∀ a b, S.equal a b = true ↔ v a = v b
  zero : v S.zero = 0
  one : v S.one = 1
  add : ∀ a b, v (S.add a b) = v a + v b
  mul : ∀ a b, v (S.mul a b) = v a * v b
  surj : ∀ r, ∃ a, v a = r

/-- `S` presents the ring `R`. -/
structure RingOps.Models {α R : Type} [Ring R] (S : RingOps α) (v : α → R) : Prop extends
    toSemi : S.toSemiRingOps.Models v where
  neg : ∀ a, v (S.neg a) = -v a

/-- `S` presents the integral domain `R`: division is exact division, with the two error cases told apart. -/
structure DomainOps.Models {α R : Type} [CommRing R] (S : DomainOps α) (v : α → R) : Prop extends
    toRing : S.toRingOps.Models v where
  domain : IsDomain R
  div_zero : ∀ a b, v b = 0 → S.div a b = some (.error .divideByZero)
  div_ok : ∀ a b, v b ≠ 0 → v b ∣ v a → ∃ q, S.div a b = some (.ok q) ∧ v a = v q * v b
  div_not : ∀ a b, v b ≠ 0 → ¬ v b ∣ v a → S.div a b = some (.error .notDivisible)

/-- Favourite associates: every element is written `unit * assoc`; associates have the same `assoc`; `0` gives `(1, 0)` and
a unit `u` gives `(u, 1)` (the contract stated in rings/src/structure/structure.rs:296-301). -/
structure FavOps.Models {α R : Type} [CommRing R] (S : FavOps α) (v : α → R) : Prop extends
    toDomain : S.toDomainOps.Models v where
  fav : ∀ a, ∃ u w, S.factorFavAssoc a = some (u, w) ∧ IsUnit (v u) ∧ v a = v u * v w
  fav_zero : ∀ a u w, v a = 0 → S.factorFavAssoc a = some (u, w) → v u = 1
  fav_unit : ∀ a u w, IsUnit (v a) → S.factorFavAssoc a = some (u, w) → v w = 1
  fav_unique : ∀ a b u w u' w', Associated (v a) (v b) → S.factorFavAssoc a = some (u, w) →
    S.factorFavAssoc b = some (u', w') → v w = v w'

/-- `r` is the chosen representative of its associate class. -/
def FavOps.IsFav {α R : Type} (S : FavOps α) (v : α → R) (r : R) : Prop :=
  ∀ a u w, v a = r → S.factorFavAssoc a = some (u, w) → v w = r

/-- Euclidean division with remainder. -/
structure EucOps.Models {α R : Type} [CommRing R] (S : EucOps α) (v : α → R) : Prop extends
    toFav : S.toFavOps.Models v where
  norm : ∀ a, S.norm a = none ↔ v a = 0
  norm_dvd : ∀ a b n k, v a ∣ v b → S.norm a = some n → S.norm b = some k → n ≤ k
  quorem_zero : ∀ a b, v b = 0 → S.quorem a b = some none
  quorem : ∀ a b, v b ≠ 0 → ∃ q r, S.quorem a b = some (some (q, r)) ∧ v a = v q * v b + v r ∧
    (v r ≠ 0 → ∃ n m, S.norm r = some n ∧ S.norm b = some m ∧ n < m)

/-- `g` is a greatest common divisor of the set `s`. -/
def IsGcdOf {R : Type} [CommRing R] (s : Set R) (g : R) : Prop :=
  (∀ x ∈ s, g ∣ x) ∧ ∀ d, (∀ x ∈ s, d ∣ x) → d ∣ g

/-- `m` is a least common multiple of the set `s`. -/
def IsLcmOf {R : Type} [CommRing R] (s : Set R) (m : R) : Prop :=
  (∀ x ∈ s, x ∣ m) ∧ ∀ d, (∀ x ∈ s, x ∣ d) → m ∣ d

/-- Greatest common divisors that are favourite associates. -/
structure GcdOps.Models {α R : Type} [CommRing R] (S : GcdOps α) (v : α → R) : Prop extends
    toFav : S.toFavOps.Models v where
  gcd : ∀ x y, ∃ g, S.gcd x y = some g ∧ IsGcdOf {v x, v y} (v g) ∧ S.IsFav v (v g)

/-- Greatest common divisors with Bézout coefficients. -/
structure BezoutOps.Models {α R : Type} [CommRing R] (S : BezoutOps α) (v : α → R) : Prop extends
    toGcd : S.toGcdOps.Models v where
  xgcd : ∀ x y, ∃ g a b, S.xgcd x y = some (g, a, b) ∧ v g = v a * v x + v b * v y ∧
    IsGcdOf {v x, v y} (v g) ∧ S.IsFav v (v g)

/-- The ring element a factored element denotes. -/
def Factored.denote {α R : Type} [CommRing R] (v : α → R) (f : Factored α) : R :=
  v f.unit * (f.factors.map fun p => v p.1 ^ p.2).prod

/-- A valid factorization: a unit and distinct irreducible favourite associates with positive exponents. -/
structure Factored.Valid {α R : Type} [CommRing R] (S : FavOps α) (v : α → R) (f : Factored α) : Prop where
  unit : IsUnit (v f.unit)
  irreducible : ∀ p ∈ f.factors, Irreducible (v p.1)
  fav : ∀ p ∈ f.factors, S.IsFav v (v p.1)
  pos : ∀ p ∈ f.factors, 0 < p.2
  distinct : (f.factors.map fun p => v p.1).Nodup

end Verif.Rings
