import Verif.Spec.Eigen
import Verif.Props.Factored
import Verif.Proofs.SmithPoly
import Mathlib.FieldTheory.Perfect
import Mathlib.LinearAlgebra.Matrix.Charpoly.Coeff

/-! Roots in an algebraic closure. -/

namespace Verif.Rings
open Polynomial

section Poly
variable {K L : Type} [Field K] [Field L] [Algebra K L]

theorem squarefree_prod_of_monic (l : List K[X]) (hm : ∀ g ∈ l, g.Monic) (hi : ∀ g ∈ l, Irreducible g) (hn : l.Nodup) : Squarefree l.prod := by
  induction l with
  | nil => rw [List.prod_nil]; exact squarefree_one
  | cons g l ih =>
    rw [List.prod_cons, squarefree_mul_iff]
    have hg := hi g List.mem_cons_self
    refine ⟨?_, hg.squarefree, ih (fun x hx => hm x (List.mem_cons_of_mem _ hx)) (fun x hx => hi x (List.mem_cons_of_mem _ hx)) (List.nodup_cons.1 hn).2⟩
    rw [hg.isRelPrime_iff_not_dvd]
    intro hd
    obtain ⟨x, hx, hd⟩ := (hg.prime.dvd_prod_iff).1 hd
    have hass := hg.associated_of_dvd (hi x (List.mem_cons_of_mem _ hx)) hd
    have := eq_of_monic_of_associated (hm g List.mem_cons_self) (hm x (List.mem_cons_of_mem _ hx)) hass
    exact (List.nodup_cons.1 hn).1 (this ▸ hx)

/-- two different monic irreducible polynomials have no common root -/
theorem no_common_root {g h : K[X]} (hg : Irreducible g) (hh : Irreducible h) (hgm : g.Monic) (hhm : h.Monic) {x : L} (h1 : aeval x g = 0)
    (h2 : aeval x h = 0) : g = h := by
  rw [minpoly.eq_of_irreducible_of_monic hg h1 hgm, minpoly.eq_of_irreducible_of_monic hh h2 hhm]

variable [CharZero K]

theorem separable_of_irreducible {g : K[X]} (hg : Irreducible g) : (g.map (algebraMap K L)).Separable :=
  (PerfectField.separable_of_irreducible hg).map

/-- the multiplicity of a root of one of the factors is the exponent of the factor -/
theorem multiplicity_of_factor (x : L) (l : List (K[X] × ℕ)) (hm : ∀ g ∈ l, g.1.Monic) (hi : ∀ g ∈ l, Irreducible g.1)
    (hn : (l.map Prod.fst).Nodup) :
    ((∀ g ∈ l, aeval x g.1 ≠ 0) → rootMultiplicity x ((l.map fun g : K[X] × ℕ => g.1 ^ g.2).prod.map (algebraMap K L)) = 0) ∧
    ∀ g ∈ l, aeval x g.1 = 0 → rootMultiplicity x ((l.map fun g : K[X] × ℕ => g.1 ^ g.2).prod.map (algebraMap K L)) = g.2 := by
  classical
  induction l with
  | nil => exact ⟨fun _ => by simp, fun g hg => absurd hg List.not_mem_nil⟩
  | cons h l ih =>
    obtain ⟨i1, i2⟩ := ih (fun g hg => hm g (List.mem_cons_of_mem _ hg)) (fun g hg => hi g (List.mem_cons_of_mem _ hg))
      (List.nodup_cons.1 hn).2
    have hne : ∀ l : List (K[X] × ℕ), (∀ g ∈ l, Irreducible g.1) → (l.map fun g : K[X] × ℕ => g.1 ^ g.2).prod.map (algebraMap K L) ≠ 0 := by
      intro l hl
      rw [Ne, Polynomial.map_eq_zero, List.prod_eq_zero_iff]
      intro h0
      obtain ⟨g, hg, h1⟩ := List.mem_map.1 h0
      exact pow_ne_zero _ (hl g hg).ne_zero h1
    have key : rootMultiplicity x (((h :: l).map fun g : K[X] × ℕ => g.1 ^ g.2).prod.map (algebraMap K L)) =
        h.2 * rootMultiplicity x (h.1.map (algebraMap K L)) + rootMultiplicity x ((l.map fun g : K[X] × ℕ => g.1 ^ g.2).prod.map (algebraMap K L)) := by
      rw [List.map_cons, List.prod_cons, Polynomial.map_mul, rootMultiplicity_mul (mul_ne_zero ?_ (hne l fun g hg => hi g (List.mem_cons_of_mem _ hg))),
        Polynomial.map_pow, ← count_roots, roots_pow, Multiset.count_nsmul, count_roots]
      rw [Polynomial.map_pow]
      exact pow_ne_zero _ ((Polynomial.map_ne_zero_iff (algebraMap K L).injective).2 (hi h List.mem_cons_self).ne_zero)
    have hz : ∀ g : K[X], aeval x g ≠ 0 → rootMultiplicity x (g.map (algebraMap K L)) = 0 := fun g hg =>
      rootMultiplicity_eq_zero (by rwa [IsRoot.def, eval_map_algebraMap])
    constructor
    · intro h0
      rw [key, hz _ (h0 h List.mem_cons_self), mul_zero, i1 fun g hg => h0 g (List.mem_cons_of_mem _ hg)]
    · intro g hg h0
      rw [key]
      rcases List.mem_cons.1 hg with rfl | hg
      · rw [i1 fun w hw hw0 => ?_, add_zero]
        · have h1 := rootMultiplicity_le_one_of_separable (separable_of_irreducible (L := L) (hi g List.mem_cons_self)) x
          have h2 : 0 < rootMultiplicity x (g.1.map (algebraMap K L)) := by
            rw [rootMultiplicity_pos ((Polynomial.map_ne_zero_iff (algebraMap K L).injective).2 (hi g List.mem_cons_self).ne_zero), IsRoot.def,
              eval_map_algebraMap]
            exact h0
          rw [show rootMultiplicity x (g.1.map (algebraMap K L)) = 1 by omega, mul_one]
        · have := no_common_root (hi g List.mem_cons_self) (hi w (List.mem_cons_of_mem _ hw)) (hm g List.mem_cons_self)
            (hm w (List.mem_cons_of_mem _ hw)) h0 hw0
          exact (List.nodup_cons.1 hn).1 (List.mem_map.2 ⟨w, hw, this.symm⟩)
      · rw [hz h.1 ?_, mul_zero, zero_add]
        · exact i2 g hg h0
        · intro h1
          have := no_common_root (hi h List.mem_cons_self) (hi g (List.mem_cons_of_mem _ hg)) (hm h List.mem_cons_self)
            (hm g (List.mem_cons_of_mem _ hg)) h1 h0
          exact (List.nodup_cons.1 hn).1 (List.mem_map.2 ⟨g, hg, this.symm⟩)

end Poly

section
variable {β α K L : Type} [Field K] [Field L] [Algebra K L] [CharZero K] {C : ClosureOps β α} {v : β → K} {w : α → L} (hC : C.Sound v w)
include hC

theorem ClosureOps.Sound.rootsUnique {p : List β} (hp : polyVal v p ≠ 0) :
    ∃ l, C.rootsUnique p = some (some l) ∧ (l.map w).Nodup ∧ ∀ x, x ∈ l.map w ↔ aeval x (polyVal v p) = 0 := by
  obtain ⟨F, e1, hF, ha⟩ := hC.factor_ne p hp
  have hq := (Factored.C43_squarefree_list hC.base.fieldFav.poly F).1
  have hm : ∀ g ∈ F.factors, (polyVal v g.1).Monic := fun g hg => hC.base.polyFav_monic (hF.irreducible g hg).ne_zero (hF.fav g hg)
  have hsq : Squarefree (F.factors.map fun g => polyVal v g.1).prod := by
    refine squarefree_prod_of_monic _ ?_ ?_ hF.distinct
    · intro x hx
      obtain ⟨g, hg, rfl⟩ := List.mem_map.1 hx
      exact hm g hg
    · intro x hx
      obtain ⟨g, hg, rfl⟩ := List.mem_map.1 hx
      exact hF.irreducible g hg
  obtain ⟨l, e2, hl⟩ := hC.roots_ne (F.expandSquarefree C.base.fieldFav.poly) (by rw [hq]; exact hsq.ne_zero)
  refine ⟨l, ?_, ?_, fun x => ?_⟩
  · unfold ClosureOps.rootsUnique
    rw [e1]
    exact e2
  · rw [← Multiset.coe_nodup, hl, hq]
    exact nodup_roots (PerfectField.separable_iff_squarefree.2 hsq).map
  · rw [← Multiset.mem_coe, hl, hq, mem_roots ((Polynomial.map_ne_zero_iff (algebraMap K L).injective).2 hsq.ne_zero), IsRoot.def,
      eval_map_algebraMap]
    have hz : ∀ a b : K[X], Associated a b → (aeval x a = 0 ↔ aeval x b = 0) := fun a b h =>
      (h.map (aeval (R := K) x)).eq_zero_iff
    rw [← hz _ _ ha]
    unfold Factored.denote
    rw [map_mul, map_list_prod, map_list_prod, List.map_map, List.map_map, mul_eq_zero, List.prod_eq_zero_iff, List.prod_eq_zero_iff]
    constructor
    · intro h
      right
      obtain ⟨g, hg, h0⟩ := List.mem_map.1 h
      refine List.mem_map.2 ⟨g, hg, ?_⟩
      simp only [Function.comp, map_pow] at h0 ⊢
      rw [h0, zero_pow (hF.pos g hg).ne']
    · rintro (h | h)
      · exact absurd h (hF.unit.map (aeval (R := K) x)).ne_zero
      · obtain ⟨g, hg, h0⟩ := List.mem_map.1 h
        refine List.mem_map.2 ⟨g, hg, ?_⟩
        simp only [Function.comp, map_pow] at h0 ⊢
        exact pow_eq_zero_iff (hF.pos g hg).ne' |>.1 h0

theorem ClosureOps.Sound.rootsPowers {p : List β} (hp : polyVal v p ≠ 0) :
    ∃ l, C.rootsPowers p = some (some l) ∧ (l.map fun r => w r.1).Nodup ∧ (∀ x, (∃ r ∈ l, w r.1 = x) ↔ aeval x (polyVal v p) = 0) ∧
      ∀ r ∈ l, r.2 = rootMultiplicity (w r.1) ((polyVal v p).map (algebraMap K L)) := by
  obtain ⟨F, e1, hF, ha⟩ := hC.factor_ne p hp
  have hm : ∀ g ∈ F.factors, (polyVal v g.1).Monic := fun g hg => hC.base.polyFav_monic (hF.irreducible g hg).ne_zero (hF.fav g hg)
  have hroots : ∀ g ∈ F.factors, ∃ l, C.rootsOfFactor g = some l ∧ (l.map fun r => w r.1).Nodup ∧ (∀ r ∈ l, r.2 = g.2) ∧
      ∀ x, (∃ r ∈ l, w r.1 = x) ↔ aeval x (polyVal v g.1) = 0 := by
    intro g hg
    have hg0 := (hF.irreducible g hg).ne_zero
    obtain ⟨l, e, hl⟩ := hC.roots_ne g.1 hg0
    refine ⟨l.map fun x => (x, g.2), ?_, ?_, ?_, fun x => ?_⟩
    · unfold ClosureOps.rootsOfFactor
      rw [e]
      rfl
    · rw [List.map_map]
      have : (l.map w).Nodup := by
        rw [← Multiset.coe_nodup, hl]
        exact nodup_roots (separable_of_irreducible (hF.irreducible g hg))
      exact this
    · intro r hr
      obtain ⟨y, -, rfl⟩ := List.mem_map.1 hr
      rfl
    · have h1 : x ∈ l.map w ↔ aeval x (polyVal v g.1) = 0 := by
        rw [← Multiset.mem_coe, hl, mem_roots ((Polynomial.map_ne_zero_iff (algebraMap K L).injective).2 hg0), IsRoot.def, eval_map_algebraMap]
      rw [← h1, List.mem_map]
      constructor
      · rintro ⟨r, hr, rfl⟩
        obtain ⟨y, hy, rfl⟩ := List.mem_map.1 hr
        exact ⟨y, hy, rfl⟩
      · rintro ⟨y, hy, rfl⟩
        exact ⟨(y, g.2), List.mem_map.2 ⟨y, hy, rfl⟩, rfl⟩
  -- the loop over the factors
  have hloop : ∀ fs : List (List β × Nat), (∀ g ∈ fs, g ∈ F.factors) → (fs.map fun g => polyVal v g.1).Nodup →
      ∃ ls, fs.mapM C.rootsOfFactor = some ls ∧ (ls.flatten.map fun r => w r.1).Nodup ∧
        (∀ r ∈ ls.flatten, ∃ g ∈ fs, r.2 = g.2 ∧ aeval (w r.1) (polyVal v g.1) = 0) ∧
        ∀ g ∈ fs, ∀ x, aeval x (polyVal v g.1) = 0 → ∃ r ∈ ls.flatten, w r.1 = x := by
    intro fs
    induction fs with
    | nil => exact fun _ _ => ⟨[], rfl, by simp, by simp, by simp⟩
    | cons g fs ih =>
      intro hsub hn
      obtain ⟨ls, i1, i2, i3, i4⟩ := ih (fun x hx => hsub x (List.mem_cons_of_mem _ hx)) (List.nodup_cons.1 hn).2
      have hgF := hsub g List.mem_cons_self
      obtain ⟨l, j1, j2, j3, j4⟩ := hroots g hgF
      refine ⟨l :: ls, ?_, ?_, ?_, ?_⟩
      · rw [List.mapM_cons, j1, i1]
        rfl
      · rw [List.flatten_cons, List.map_append]
        refine List.Nodup.append j2 i2 ?_
        intro x h1 h2
        obtain ⟨r, hr, rfl⟩ := List.mem_map.1 h1
        obtain ⟨s, hs, hsr⟩ := List.mem_map.1 h2
        obtain ⟨g', hg', -, h0⟩ := i3 s hs
        rw [hsr] at h0
        have hg'F := hsub g' (List.mem_cons_of_mem _ hg')
        have := no_common_root (hF.irreducible g hgF) (hF.irreducible g' hg'F) (hm g hgF) (hm g' hg'F) ((j4 _).1 ⟨r, hr, rfl⟩) h0
        exact (List.nodup_cons.1 hn).1 (List.mem_map.2 ⟨g', hg', this.symm⟩)
      · intro r hr
        rw [List.flatten_cons, List.mem_append] at hr
        rcases hr with hr | hr
        · exact ⟨g, List.mem_cons_self, j3 r hr, (j4 _).1 ⟨r, hr, rfl⟩⟩
        · obtain ⟨g', hg', h1⟩ := i3 r hr
          exact ⟨g', List.mem_cons_of_mem _ hg', h1⟩
      · intro g' hg' x hx
        rw [List.flatten_cons]
        rcases List.mem_cons.1 hg' with rfl | hg'
        · obtain ⟨r, hr, h1⟩ := (j4 x).2 hx
          exact ⟨r, List.mem_append_left _ hr, h1⟩
        · obtain ⟨r, hr, h1⟩ := i4 g' hg' x hx
          exact ⟨r, List.mem_append_right _ hr, h1⟩
  obtain ⟨ls, k1, k2, k3, k4⟩ := hloop F.factors (fun _ h => h) hF.distinct
  -- multiplicities
  have hunit : ∃ c : L, c ≠ 0 ∧ (polyVal v p).map (algebraMap K L) =
      Polynomial.C c * ((F.factors.map fun g => (polyVal v g.1, g.2)).map fun g : K[X] × ℕ => g.1 ^ g.2).prod.map (algebraMap K L) := by
    obtain ⟨u, hu⟩ := ha
    obtain ⟨a, ha, e⟩ := Polynomial.isUnit_iff.1 (u.isUnit.mul hF.unit)
    refine ⟨algebraMap K L a, (_root_.map_ne_zero _).2 ha.ne_zero, ?_⟩
    rw [← map_C, ← Polynomial.map_mul, ← hu]
    congr 1
    rw [e]
    unfold Factored.denote
    rw [List.map_map]
    simp only [Function.comp_def]
    ring
  obtain ⟨c, hc, hP⟩ := hunit
  have hmul : ∀ x, rootMultiplicity x ((polyVal v p).map (algebraMap K L)) =
      rootMultiplicity x (((F.factors.map fun g => (polyVal v g.1, g.2)).map fun g : K[X] × ℕ => g.1 ^ g.2).prod.map (algebraMap K L)) := by
    classical
    intro x
    rw [hP, ← count_roots, roots_C_mul _ hc, count_roots]
  have hmf := fun x : L => multiplicity_of_factor x (F.factors.map fun g => (polyVal v g.1, g.2)) (by
    intro y hy
    obtain ⟨g, hg, rfl⟩ := List.mem_map.1 hy
    exact hm g hg) (by
    intro y hy
    obtain ⟨g, hg, rfl⟩ := List.mem_map.1 hy
    exact hF.irreducible g hg) (by rw [List.map_map]; exact hF.distinct)
  have hval : ∀ r ∈ ls.flatten, r.2 = rootMultiplicity (w r.1) ((polyVal v p).map (algebraMap K L)) := by
    intro r hr
    obtain ⟨g, hg, h1, h2⟩ := k3 r hr
    rw [hmul, (hmf (w r.1)).2 (polyVal v g.1, g.2) (List.mem_map.2 ⟨g, hg, rfl⟩) h2, h1]
  refine ⟨ls.flatten, ?_, k2, fun x => ⟨?_, fun h0 => ?_⟩, hval⟩
  · unfold ClosureOps.rootsPowers
    simp only [e1, Option.bind_eq_bind, Option.bind_some, k1]
    rfl
  · rintro ⟨r, hr, rfl⟩
    obtain ⟨g, hg, h1, h2⟩ := k3 r hr
    have h3 := hval r hr
    have h4 := hF.pos g hg
    have h5 : 0 < rootMultiplicity (w r.1) ((polyVal v p).map (algebraMap K L)) := by omega
    rw [rootMultiplicity_pos ((Polynomial.map_ne_zero_iff (algebraMap K L).injective).2 hp), IsRoot.def, eval_map_algebraMap] at h5
    exact h5
  · by_contra hno
    have h1 : rootMultiplicity x ((polyVal v p).map (algebraMap K L)) = 0 := by
      rw [hmul]
      refine (hmf x).1 fun y hy h2 => ?_
      obtain ⟨g, hg, rfl⟩ := List.mem_map.1 hy
      exact hno (k4 g hg x h2)
    have h5 : 0 < rootMultiplicity x ((polyVal v p).map (algebraMap K L)) := by
      rw [rootMultiplicity_pos ((Polynomial.map_ne_zero_iff (algebraMap K L).injective).2 hp), IsRoot.def, eval_map_algebraMap]
      exact h0
    omega

end
end Verif.Rings
