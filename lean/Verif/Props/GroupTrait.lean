import Verif.Proofs.GroupTrait
import Mathlib.Data.ZMod.Basic

/-!
# Properties C11, C12: the provided methods of the `Group` trait

`T` is any group with decidable equality (what an implementor of the trait promises).
-/

namespace Verif.GroupTrait

open Verif.Table

variable {T : Type} [Group T]

/-! ## C11 -/

/-- `nat_pow(g, n)` is the `n`-fold composition of `g`: `g^0 = 1`, `g^(n+1) = g^n * g`; `int_pow(g, n)` is `g^n` for `n ≥ 0` and `(g^|n|)⁻¹` for `n < 0`.
`Pow` for every integer width converts the exponent and calls one of the two. -/
theorem C11_pow (g : T) : (∀ n : Nat, natPow 1 (· * ·) g n = g ^ n) ∧ (∀ n : Int, intPow 1 (·⁻¹) (· * ·) g n = g ^ n) := by
  have hn : ∀ n : Nat, natPow 1 (· * ·) g n = g ^ n := fun n => binPow_eq_pow g n
  refine ⟨hn, ?_⟩
  intro n
  unfold intPow
  split
  · rename_i h; rw [h]; simp
  split
  · rename_i h0 h
    rw [hn]
    conv_rhs => rw [show n = (n.natAbs : Int) by omega]
    rw [zpow_natCast]
  · rename_i h0 h
    rw [hn]
    conv_rhs => rw [show n = -(n.natAbs : Int) by omega]
    rw [zpow_neg, zpow_natCast, Int.natAbs_neg]

/-- `compose_list` is the product in order. -/
theorem C11_compose_list (l : List T) : composeList 1 (· * ·) l = l.prod := by
  unfold composeList
  rw [List.prod_eq_foldl]

example : intPow 1 (·⁻¹) (· * ·) (Multiplicative.ofAdd (3 : ℤ)) (-5) = Multiplicative.ofAdd (-15 : ℤ) := by
  rw [(C11_pow _).2]; rfl

/-! ## C12 -/

variable [DecidableEq T]

/-- If `generated_finite_subgroup_table(gens)` returns `(G, elems)` then `elems` lists every element of the subgroup generated by `gens` exactly
once, the identity first, and `G` is a valid group table of that size with `G.mul`, `G.inv` being composition and inverse of the listed elements. -/
theorem C12_table (gens : List T) (G : Grp) (elems : List T) (h : generatedTable 1 (·⁻¹) (· * ·) gens = some (G, elems)) :
    elems.Nodup ∧ (∀ x, x ∈ elems ↔ x ∈ Subgroup.closure {g | g ∈ gens}) ∧ IsGroup G ∧ G.n = elems.length ∧ G.ident = 0 ∧ elems[0]? = some 1 ∧
    (∀ i a, elems[i]? = some a → elems[G.i i]? = some a⁻¹) ∧
    (∀ i j a b, elems[i]? = some a → elems[j]? = some b → elems[G.m i j]? = some (a * b)) := by
  obtain ⟨h1, h2, h3, h4, h5, h6⟩ := generatedTable_sound gens G elems h
  have key : ∀ i a, elems[i]? = some a ↔ i < G.n ∧ elems.getD i 1 = a := by
    intro i a
    rw [h3, List.getElem?_eq_some_iff]
    constructor
    · rintro ⟨hi, e⟩; exact ⟨hi, by rw [List.getD_eq_getElem _ _ hi]; exact e⟩
    · rintro ⟨hi, e⟩; exact ⟨hi, by rw [List.getD_eq_getElem _ _ hi] at e; exact e⟩
  refine ⟨h1, h2, h6.isGroup, h3, h4, h5, ?_, ?_⟩
  · intro i a hi
    obtain ⟨hi', rfl⟩ := (key i a).1 hi
    exact (key _ _).2 ⟨h6.inv_lt i hi', h6.inv i hi'⟩
  · intro i j a b hi hj
    obtain ⟨hi', rfl⟩ := (key i a).1 hi
    obtain ⟨hj', rfl⟩ := (key j b).1 hj
    exact (key _ _).2 ⟨h6.mul_lt i j hi' hj', h6.mul i j hi' hj'⟩

/-- `generated_finite_subgroup_table(gens)` returns (no panic, no divergence) iff the generated subgroup is finite. -/
theorem C12_table_terminates (gens : List T) :
    (∃ r, generatedTable 1 (·⁻¹) (· * ·) gens = some r) ↔ (Subgroup.closure {g | g ∈ gens} : Set T).Finite := by
  constructor
  · rintro ⟨⟨G, elems⟩, h⟩
    obtain ⟨-, h2, -⟩ := generatedTable_sound gens G elems h
    apply (List.finite_toSet elems).subset
    intro x hx
    exact (h2 x).2 hx
  · exact generatedTable_total gens

/-- `generated_finite_subgroup(gens)` returns iff the generated subgroup is finite, and then returns exactly its elements. -/
theorem C12_finite_subgroup (gens : List T) :
    (∀ r, generatedFiniteSubgroup 1 (· * ·) gens = some r → ∀ x, x ∈ r ↔ x ∈ Subgroup.closure {g | g ∈ gens}) ∧
    ((∃ r, generatedFiniteSubgroup 1 (· * ·) gens = some r) ↔ (Subgroup.closure {g | g ∈ gens} : Set T).Finite) := by
  have sound : ∀ r, generatedFiniteSubgroup 1 (· * ·) gens = some r → ∀ x, x ∈ r ↔ x ∈ Subgroup.closure {g | g ∈ gens} := by
    intro r h
    have hr := bfs_spec _ 1 r h
    have hclosed : ∀ x ∈ r, ∀ g ∈ {g | g ∈ gens}, x * g ∈ r := by
      intro x hx g hg
      rw [hr] at hx ⊢
      exact hx.tail' (List.mem_map.2 ⟨g, hg, rfl⟩)
    intro x
    constructor
    · intro hx
      rw [hr] at hx
      induction hx with
      | refl => exact one_mem _
      | tail _ hs ih =>
        obtain ⟨g, hg, rfl⟩ := List.mem_map.1 hs
        exact mul_mem ih (Subgroup.subset_closure hg)
    · exact closure_subset_of_right_closed {g | g ∈ gens} (r : Set T) r.finite_toSet (by
        rw [Finset.mem_coe, hr]; exact Relation.ReflTransGen.refl) hclosed x
  refine ⟨sound, ?_, ?_⟩
  · rintro ⟨r, h⟩
    apply r.finite_toSet.subset
    intro x hx
    exact (sound r h x).2 hx
  · intro hfin
    apply bfs_terminates _ 1 hfin.toFinset
    · simp
    · intro x hx y hy
      obtain ⟨g, hg, rfl⟩ := List.mem_map.1 hy
      rw [Set.Finite.mem_toFinset] at hx ⊢
      exact mul_mem hx (Subgroup.subset_closure hg)

/-- a finite example meeting the hypotheses: `⟨2⟩ ≤ ℤ/6` -/
example : ∃ r, generatedTable 1 (·⁻¹) (· * ·) [Multiplicative.ofAdd (2 : ZMod 6)] = some r := by
  haveI : Finite (Multiplicative (ZMod 6)) := inferInstanceAs (Finite (Fin 6))
  exact (C12_table_terminates _).2 (Set.toFinite _)

/-- and a non-terminating one: `⟨1⟩ = ℤ` -/
example : ¬ ∃ r, generatedTable 1 (·⁻¹) (· * ·) [Multiplicative.ofAdd (1 : ℤ)] = some r := by
  rw [C12_table_terminates]
  intro hfin
  have hall : (Subgroup.closure {g | g ∈ [Multiplicative.ofAdd (1 : ℤ)]} : Set (Multiplicative ℤ)) = Set.univ := by
    ext x
    simp only [Set.mem_univ, iff_true, SetLike.mem_coe]
    have : x = (Multiplicative.ofAdd (1 : ℤ)) ^ (Multiplicative.toAdd x) := by
      rw [← ofAdd_zsmul]; simp
    rw [this]
    exact zpow_mem (Subgroup.subset_closure (by simp)) _
  rw [hall] at hfin
  exact Set.infinite_univ hfin

end Verif.GroupTrait
