import Mathlib.Algebra.Order.Antidiag.FinsuppEquiv
import Mathlib.Data.Finset.Option
import Mathlib.Data.Finset.Powerset
import Mathlib.Algebra.BigOperators.Option
import Mathlib.Algebra.BigOperators.Ring.Finset
import Mathlib.Tactic.Ring

/-!
# Counting exponent vectors
-/

namespace Verif.Aks

open Finset

variable {K : Type*}

open Classical in
/-- exponents that are positive exactly on `I` -/
noncomputable def expo (I : Finset K) (f : Option K →₀ ℕ) : K → ℕ := fun c => if c ∈ I then 1 + f (some c) else 0

open Classical in
/-- the exponents that are positive exactly on `I` and have sum at most `d` -/
noncomputable def expos (I : Finset K) (d : ℕ) : Finset (K → ℕ) :=
  if d < #I then ∅ else ((insertNone I).finsuppAntidiag (d - #I)).image (expo I)

theorem card_expos (I : Finset K) (d : ℕ) : #(expos I d) = d.choose #I := by
  classical
  unfold expos
  split
  · rename_i h
    rw [Nat.choose_eq_zero_of_lt h, card_empty]
  · rename_i h
    rw [not_lt] at h
    rw [card_image_of_injOn, card_finsuppAntidiag_nat_eq_choose, card_insertNone,
      show #I + 1 + (d - #I) - 1 = d by omega, Nat.choose_symm h]
    intro f hf g hg e
    rw [mem_coe, mem_finsuppAntidiag] at hf hg
    have hs : ∀ c, f (some c) = g (some c) := by
      intro c
      by_cases hc : c ∈ I
      · have := congrFun e c
        simp only [expo, hc, if_true] at this
        omega
      · have h1 : some c ∉ insertNone I := by simpa using hc
        rw [Finsupp.notMem_support_iff.1 fun h => h1 (hf.2 h), Finsupp.notMem_support_iff.1 fun h => h1 (hg.2 h)]
    have hn : f none = g none := by
      have h1 := hf.1.trans hg.1.symm
      rw [sum_insertNone, sum_insertNone, sum_congr rfl fun c _ => hs c] at h1
      omega
    ext (_ | c)
    · exact hn
    · exact hs c

theorem mem_expos {I : Finset K} {d : ℕ} {e : K → ℕ} (h : e ∈ expos I d) : (∀ c, e c ≠ 0 ↔ c ∈ I) ∧ ∑ c ∈ I, e c ≤ d := by
  classical
  unfold expos at h
  split at h
  · simp at h
  · rename_i hd
    rw [mem_image] at h
    obtain ⟨f, hf, rfl⟩ := h
    rw [mem_finsuppAntidiag] at hf
    constructor
    · intro c
      unfold expo
      split <;> simp_all
    · have h1 := hf.1
      rw [sum_insertNone] at h1
      have h2 : ∑ c ∈ I, expo I f c = ∑ c ∈ I, (1 + f (some c)) := sum_congr rfl fun c hc => by simp [expo, hc]
      rw [h2, sum_add_distrib, sum_const, smul_eq_mul, mul_one]
      omega

open Classical in
/-- pairs of exponents: the first positive on `i` elements of `T` and with sum at most `d`, the second positive on `j` other elements and with sum
at most `d'` -/
noncomputable def family (T : Finset K) (i d j d' : ℕ) : Finset ((K → ℕ) × (K → ℕ)) :=
  (T.powersetCard i).biUnion fun I => ((T \ I).powersetCard j).biUnion fun J => expos I d ×ˢ expos J d'

theorem card_family (T : Finset K) (i d j d' : ℕ) :
    #(family T i d j d') = (#T).choose i * d.choose i * (#T - i).choose j * d'.choose j := by
  classical
  unfold family
  rw [card_biUnion]
  · have : ∀ I ∈ T.powersetCard i, #(((T \ I).powersetCard j).biUnion fun J => expos I d ×ˢ expos J d') = (#T - i).choose j * (d.choose i * d'.choose j) := by
      intro I hI
      rw [mem_powersetCard] at hI
      rw [card_biUnion]
      · rw [sum_congr rfl (g := fun _ => d.choose i * d'.choose j), sum_const, card_powersetCard, card_sdiff_of_subset hI.1, hI.2, smul_eq_mul]
        intro J hJ
        rw [card_product, card_expos, card_expos, hI.2, (mem_powersetCard.1 hJ).2]
      · intro J _ J' _ hne
        rw [Function.onFun, disjoint_left]
        rintro ⟨f, g⟩ h1 h2
        rw [mem_product] at h1 h2
        exact hne (ext fun c => by rw [← (mem_expos h1.2).1 c, (mem_expos h2.2).1 c])
    rw [sum_congr rfl this, sum_const, card_powersetCard, smul_eq_mul]
    ring
  · intro I _ I' _ hne
    rw [Function.onFun, disjoint_left]
    rintro ⟨f, g⟩ h1 h2
    simp only [mem_biUnion, mem_product] at h1 h2
    obtain ⟨J, -, h1, -⟩ := h1
    obtain ⟨J', -, h2, -⟩ := h2
    exact hne (ext fun c => by rw [← (mem_expos h1).1 c, (mem_expos h2).1 c])

theorem mem_family {T : Finset K} {i d j d' : ℕ} {e : (K → ℕ) × (K → ℕ)} (h : e ∈ family T i d j d') :
    (∀ c, e.1 c = 0 ∨ e.2 c = 0) ∧ (∀ c, c ∉ T → e.1 c = 0 ∧ e.2 c = 0) ∧ ∑ c ∈ T, e.1 c ≤ d ∧ ∑ c ∈ T, e.2 c ≤ d' := by
  classical
  unfold family at h
  simp only [mem_biUnion, mem_product, mem_powersetCard] at h
  obtain ⟨I, ⟨hI, -⟩, J, ⟨hJ, -⟩, h1, h2⟩ := h
  obtain ⟨a1, a2⟩ := mem_expos h1
  obtain ⟨b1, b2⟩ := mem_expos h2
  have hJT : J ⊆ T := hJ.trans sdiff_subset
  refine ⟨fun c => ?_, fun c hc => ⟨?_, ?_⟩, ?_, ?_⟩
  · by_contra hcon
    push Not at hcon
    exact (mem_sdiff.1 (hJ ((b1 c).1 hcon.2))).2 ((a1 c).1 hcon.1)
  · by_contra hcon
    exact hc (hI ((a1 c).1 hcon))
  · by_contra hcon
    exact hc (hJT ((b1 c).1 hcon))
  · rw [← sum_subset hI fun c _ hc => by by_contra hcon; exact hc ((a1 c).1 hcon)]
    exact a2
  · rw [← sum_subset hJT fun c _ hc => by by_contra hcon; exact hc ((b1 c).1 hcon)]
    exact b2

end Verif.Aks
