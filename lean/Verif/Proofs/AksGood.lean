import Verif.Proofs.AksCount
import Mathlib.LinearAlgebra.Lagrange
import Mathlib.RingTheory.RootsOfUnity.PrimitiveRoots
import Mathlib.Algebra.Polynomial.Roots
import Mathlib.Algebra.Polynomial.Monic
import Mathlib.Algebra.Polynomial.BigOperators

/-!
# Products of linear factors at roots of unity
-/

namespace Verif.Aks

open Finset Polynomial

variable {K : Type*} [Field K]

/-- the `m`-th power acts on `η + c` like on the root of unity `η` -/
def Good (r : ℕ) (T : Finset K) (m : ℕ) : Prop := ∀ c ∈ T, ∀ η : K, η ^ r = 1 → (η + c) ^ m = η ^ m + c

variable {r : ℕ} {T : Finset K}

theorem Good.one : Good r T 1 := fun c _ η _ => by simp

theorem Good.mul {m m' : ℕ} (h : Good r T m) (h' : Good r T m') : Good r T (m * m') := fun c hc η hη => by
  rw [pow_mul, h c hc η hη, h' c hc (η ^ m) (by rw [← pow_mul, mul_comm, pow_mul, hη, one_pow]), ← pow_mul]

theorem Good.pow {m : ℕ} (h : Good r T m) (k : ℕ) : Good r T (m ^ k) := by
  induction k with
  | zero => simpa using Good.one
  | succ k ih => rw [pow_succ]; exact ih.mul h

/-- `∏ (x + c)^(f c)` -/
noncomputable def linProd (T : Finset K) (f : K → ℕ) : K[X] := ∏ c ∈ T, (X + C c) ^ f c

theorem linProd_eval (f : K → ℕ) (x : K) : (linProd T f).eval x = ∏ c ∈ T, (x + c) ^ f c := by
  simp [linProd, eval_prod]

theorem linProd_mul (f g : K → ℕ) : linProd T f * linProd T g = linProd T (fun c => f c + g c) := by
  simp only [linProd, pow_add, prod_mul_distrib]

theorem linProd_degree (f : K → ℕ) : (linProd T f).degree = (∑ c ∈ T, f c : ℕ) := by
  have hm : (linProd T f).Monic := monic_prod_of_monic _ _ fun c _ => (monic_X_add_C c).pow _
  rw [degree_eq_natDegree hm.ne_zero, linProd, natDegree_prod_of_monic _ _ fun c _ => (monic_X_add_C c).pow _]
  simp [(monic_X_add_C _).natDegree_pow]

theorem linProd_inj {f g : K → ℕ} (h : linProd T f = linProd T g) {c : K} (hc : c ∈ T) : f c = g c := by
  classical
  have hroots : ∀ f : K → ℕ, (linProd T f).roots.count (-c) = f c := by
    intro f
    rw [linProd, roots_prod _ _ (prod_ne_zero_iff.2 fun c _ => pow_ne_zero _ (X_add_C_ne_zero c)), Multiset.count_bind]
    simp only [roots_pow, roots_X_add_C, Multiset.count_nsmul, Multiset.count_singleton, neg_inj]
    change ∑ x ∈ T, _ = _
    rw [sum_eq_single c]
    · simp
    · intro b _ hb; simp [Ne.symm hb]
    · intro h; exact absurd hc h
  rw [← hroots f, ← hroots g, h]

theorem Good.eval {m : ℕ} (h : Good r T m) (f : K → ℕ) {η : K} (hη : η ^ r = 1) : (linProd T f).eval η ^ m = (linProd T f).eval (η ^ m) := by
  rw [linProd_eval, linProd_eval, ← prod_pow]
  exact prod_congr rfl fun c hc => by rw [← pow_mul, mul_comm, pow_mul, h c hc η hη]

/-- the value of a pair of exponents -/
noncomputable def value (T : Finset K) (ζ : K) (e : (K → ℕ) × (K → ℕ)) : K := (linProd T e.1).eval ζ / (linProd T e.2).eval ζ

theorem value_inj {n : ℕ} {ζ : K} (hr : 1 < r) (hζ : IsPrimitiveRoot ζ r) (hgen : ∀ a, a % r ≠ 0 → ∃ k, n ^ k % r = a % r) (hn : Good r T n)
    (h0 : ∀ c ∈ T, ζ + c ≠ 0) {i d j d' : ℕ} (hd : d + d' < r - 1) : Set.InjOn (value T ζ) (family T i d j d') := by
  classical
  intro e he e' he' h
  have hne : ∀ f : K → ℕ, (linProd T f).eval ζ ≠ 0 := fun f => by
    rw [linProd_eval]
    exact prod_ne_zero_iff.2 fun c hc => pow_ne_zero _ (h0 c hc)
  obtain ⟨a1, a2, a3, a4⟩ := mem_family he
  obtain ⟨b1, b2, b3, b4⟩ := mem_family he'
  have hz : (linProd T fun c => e.1 c + e'.2 c).eval ζ = (linProd T fun c => e'.1 c + e.2 c).eval ζ := by
    rw [← linProd_mul, ← linProd_mul, eval_mul, eval_mul]
    unfold value at h
    rwa [div_eq_div_iff (hne _) (hne _)] at h
  have hpoly : (linProd T fun c => e.1 c + e'.2 c) = linProd T fun c => e'.1 c + e.2 c := by
    set s : Finset K := (Finset.Icc 1 (r - 1)).image fun a => ζ ^ a
    have hs : #s = r - 1 := by
      rw [card_image_of_injOn, Nat.card_Icc, Nat.add_sub_cancel]
      intro a ha b hb hab
      simp only [coe_Icc, Set.mem_Icc] at ha hb
      exact hζ.pow_inj (by omega) (by omega) hab
    refine eq_of_degrees_lt_of_eval_finset_eq s ?_ ?_ ?_
    · rw [linProd_degree, hs, sum_add_distrib]
      exact_mod_cast (by omega : ∑ c ∈ T, e.1 c + ∑ c ∈ T, e'.2 c < r - 1)
    · rw [linProd_degree, hs, sum_add_distrib]
      exact_mod_cast (by omega : ∑ c ∈ T, e'.1 c + ∑ c ∈ T, e.2 c < r - 1)
    · intro x hx
      obtain ⟨a, ha, rfl⟩ := mem_image.1 hx
      rw [mem_Icc] at ha
      obtain ⟨k, hk⟩ := hgen a (by rw [Nat.mod_eq_of_lt (by omega)]; omega)
      have e1 : ζ ^ a = ζ ^ n ^ k := by
        rw [← pow_mod_orderOf ζ a, ← pow_mod_orderOf ζ (n ^ k), ← hζ.eq_orderOf, hk]
      rw [e1, ← (hn.pow k).eval _ hζ.pow_eq_one, ← (hn.pow k).eval _ hζ.pow_eq_one, hz]
  have hc : ∀ c, e.1 c = e'.1 c ∧ e.2 c = e'.2 c := by
    intro c
    by_cases hc : c ∈ T
    · have h1 := linProd_inj hpoly hc
      have := a1 c
      have := b1 c
      omega
    · have := a2 c hc
      have := b2 c hc
      omega
  exact Prod.ext (funext fun c => (hc c).1) (funext fun c => (hc c).2)

/-- two different good exponents that agree modulo `r` differ by at least the size of the family -/
theorem card_le_sub {n : ℕ} {ζ : K} (hr : 1 < r) (hζ : IsPrimitiveRoot ζ r) (hgen : ∀ a, a % r ≠ 0 → ∃ k, n ^ k % r = a % r) (hn : Good r T n)
    (h0 : ∀ c ∈ T, ζ + c ≠ 0) {i d j d' : ℕ} (hd : d + d' < r - 1) {m m' : ℕ} (hm : Good r T m) (hm' : Good r T m') (hlt : m' < m)
    (hmod : m % r = m' % r) : #(family T i d j d') ≤ m - m' := by
  classical
  rw [← card_image_of_injOn (value_inj hr hζ hgen hn h0 hd (i := i) (j := j))]
  have hne : ∀ f : K → ℕ, (linProd T f).eval ζ ≠ 0 := fun f => by
    rw [linProd_eval]
    exact prod_ne_zero_iff.2 fun c hc => pow_ne_zero _ (h0 c hc)
  have hpow : ζ ^ m = ζ ^ m' := by
    rw [← pow_mod_orderOf ζ m, ← pow_mod_orderOf ζ m', ← hζ.eq_orderOf, hmod]
  have hsub : (family T i d j d').image (value T ζ) ⊆ (nthRoots (m - m') (1 : K)).toFinset := by
    intro u hu
    obtain ⟨e, -, rfl⟩ := mem_image.1 hu
    rw [Multiset.mem_toFinset, mem_nthRoots (by omega)]
    have h1 : ∀ f : K → ℕ, (linProd T f).eval ζ ^ m = (linProd T f).eval ζ ^ m' := fun f => by
      rw [hm.eval _ hζ.pow_eq_one, hm'.eval _ hζ.pow_eq_one, hpow]
    have h2 : value T ζ e ^ m = value T ζ e ^ m' := by
      unfold value
      rw [div_pow, div_pow, h1, h1]
    have h3 : value T ζ e ≠ 0 := div_ne_zero (hne _) (hne _)
    apply mul_left_cancel₀ (pow_ne_zero m' h3)
    rw [← pow_add, Nat.add_sub_cancel' hlt.le, h2, mul_one]
  exact (card_le_card hsub).trans ((Multiset.toFinset_card_le _).trans (card_nthRoots _ _))

end Verif.Aks
