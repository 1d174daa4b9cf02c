import Mathlib.Data.Finset.SymmDiff
import Mathlib.Data.Finset.Powerset
import Mathlib.Data.Finset.NatAntidiagonal
import Mathlib.Data.Fintype.Card
import Mathlib.Data.Finset.Slice
import Mathlib.Algebra.BigOperators.Group.Finset.Basic
import Mathlib.Algebra.Order.BigOperators.Group.Finset
import Mathlib.Tactic.NormNum
import Mathlib.Tactic.Linarith
import Mathlib.Tactic.FinCases

/-!
# Golay codes as families of subsets of 24 points

The combinatorial facts behind the construction: a linear family of 4096 subsets of 24 points without non-empty members of less than 8
points completes any 5 points to an octad, and is self-orthogonal.
-/

namespace Verif.Golay
open Finset

abbrev Pt := Fin 24

/-- A linear family of 4096 subsets of 24 points, the non-empty ones with at least 8 points. -/
structure Fam (C : Finset (Finset Pt)) : Prop where
  zero : ∅ ∈ C
  add : ∀ s ∈ C, ∀ t ∈ C, symmDiff s t ∈ C
  min : ∀ s ∈ C, s ≠ ∅ → 8 ≤ s.card
  card : C.card = 4096

theorem card_symm (s t : Finset Pt) : (symmDiff s t).card + 2 * (s ∩ t).card = s.card + t.card := by
  have h1 := card_sdiff_add_card_inter s t
  have h2 := card_sdiff_add_card_inter t s
  have h3 : symmDiff s t = (s \ t) ∪ (t \ s) := rfl
  rw [h3, card_union_of_disjoint (disjoint_sdiff_sdiff), ]
  rw [inter_comm t s] at h2
  omega

theorem erase_symm {a : Pt} {c c' e e' : Finset Pt} (n1 : a ∉ e) (n2 : a ∉ e')
    (heq : symmDiff (c.erase a) e = symmDiff (c'.erase a) e') : (symmDiff c c').erase a = symmDiff e e' := by
  ext i
  have := Finset.ext_iff.1 heq i
  simp only [mem_symmDiff, mem_erase] at this ⊢
  by_cases hia : i = a
  · subst hia
    simp [n1, n2]
  · by_cases h1 : i ∈ c <;> by_cases h2 : i ∈ c' <;> by_cases h3 : i ∈ e <;> by_cases h4 : i ∈ e' <;> simp_all

variable {C : Finset (Finset Pt)} (h : Fam C)
include h

theorem Fam.eq_of {s t : Finset Pt} (hs : s ∈ C) (ht : t ∈ C) (hl : (symmDiff s t).card < 8) : s = t := by
  by_contra hne
  have := h.min _ (h.add s hs t ht) (fun e => hne (symmDiff_eq_bot.1 e))
  omega

/-- two octads with five common points are equal -/
theorem Fam.octad_unique {s t : Finset Pt} (hs : s ∈ C) (ht : t ∈ C) (cs : s.card = 8) (ct : t.card = 8) (hl : 5 ≤ (s ∩ t).card) : s = t := by
  have := card_symm s t
  exact h.eq_of hs ht (by omega)

theorem Fam.octad_exists (T : Finset Pt) (hT : T.card = 5) : ∃ O ∈ C, O.card = 8 ∧ T ⊆ O := by
  obtain ⟨a, ha⟩ : T.Nonempty := card_pos.1 (by omega)
  set S : Finset Pt := univ.erase a with hS
  have cS : S.card = 23 := by rw [hS, card_erase_of_mem (mem_univ a)]; rfl
  set E : Finset (Finset Pt) := (range 4).biUnion fun k => powersetCard k S with hE
  have cE : E.card = 2048 := by
    rw [hE, card_biUnion]
    · simp only [card_powersetCard, cS]
      decide
    · intro i _ j _ hij
      exact pairwise_disjoint_powersetCard S hij
  have memE : ∀ e, e ∈ E ↔ e ⊆ S ∧ e.card ≤ 3 := by
    intro e
    simp only [hE, mem_biUnion, mem_range, mem_powersetCard]
    constructor
    · rintro ⟨k, hk, h1, h2⟩; exact ⟨h1, by omega⟩
    · rintro ⟨h1, h2⟩; exact ⟨e.card, by omega, h1, rfl⟩
  have img : (C ×ˢ E).image (fun p => symmDiff (p.1.erase a) p.2) = S.powerset := by
    apply eq_of_subset_of_card_le
    · intro u hu
      obtain ⟨⟨c, e⟩, hm, rfl⟩ := mem_image.1 hu
      rw [mem_product] at hm
      rw [mem_powerset]
      intro i hi
      rw [mem_symmDiff] at hi
      rcases hi with ⟨hi, -⟩ | ⟨hi, -⟩
      · exact mem_erase.2 ⟨(mem_erase.1 hi).1, mem_univ _⟩
      · exact ((memE e).1 hm.2).1 hi
    · rw [card_image_of_injOn, card_product, h.card, cE, card_powerset, cS]
      · norm_num
      rintro ⟨c, e⟩ hm ⟨c', e'⟩ hm' heq
      rw [mem_coe, mem_product] at hm hm'
      dsimp only at hm hm' heq
      have he := (memE e).1 hm.2
      have he' := (memE e').1 hm'.2
      have h1 : (symmDiff c c').erase a = symmDiff e e' :=
        erase_symm (fun hh => (mem_erase.1 (he.1 hh)).1 rfl) (fun hh => (mem_erase.1 (he'.1 hh)).1 rfl) heq
      have h2 := card_symm e e'
      have h3 : (symmDiff c c').card ≤ ((symmDiff c c').erase a).card + 1 := by
        have := pred_card_le_card_erase (s := symmDiff c c') (a := a)
        omega
      rw [h1] at h3
      have hc : c = c' := h.eq_of hm.1 hm'.1 (by omega)
      subst hc
      have : symmDiff e e' = ⊥ := by rw [← h1, symmDiff_self]; rfl
      rw [symmDiff_eq_bot.1 this]
  have hm : T.erase a ∈ S.powerset := mem_powerset.2 (fun i hi => mem_erase.2 ⟨(mem_erase.1 hi).1, mem_univ _⟩)
  rw [← img] at hm
  obtain ⟨⟨c, e⟩, hm, heq⟩ := mem_image.1 hm
  rw [mem_product] at hm
  dsimp only at hm heq
  have he := (memE e).1 hm.2
  have k1 := card_symm (c.erase a) e
  rw [heq, card_erase_of_mem ha, hT] at k1
  have k4 : c ≠ ∅ := by
    rintro rfl
    rw [show (∅ : Finset Pt).erase a = ∅ from rfl] at k1 
    rw [card_empty] at k1
    have := he.2
    omega
  have k3 := h.min c hm.1 k4
  have k5 : e ∩ T.erase a = ∅ ∧ (c.erase a).card = 7 := by
    have k6 : symmDiff (T.erase a) e = c.erase a := by rw [← heq, symmDiff_symmDiff_cancel_right]
    have k7 := card_symm (T.erase a) e
    rw [k6, card_erase_of_mem ha, hT] at k7
    have k8 := pred_card_le_card_erase (s := c) (a := a)
    have k9 : (T.erase a ∩ e).card = 0 := by omega
    rw [inter_comm, card_eq_zero.1 k9]
    refine ⟨rfl, by omega⟩
  have hac : a ∈ c := by
    by_contra hn
    rw [erase_eq_of_notMem hn] at k5
    omega
  refine ⟨c, hm.1, by rw [card_erase_of_mem hac] at k5; omega, ?_⟩
  intro i hi
  by_cases hia : i = a
  · rw [hia]; exact hac
  · have : i ∈ T.erase a := mem_erase.2 ⟨hia, hi⟩
    have hne : i ∉ e := fun hh => by
      have : i ∈ e ∩ T.erase a := mem_inter.2 ⟨hh, this⟩
      rw [k5.1] at this
      exact absurd this (notMem_empty _)
    rw [← heq, mem_symmDiff] at this
    rcases this with h1 | h1
    · exact (mem_erase.1 h1.1).2
    · exact absurd h1.1 hne

end Verif.Golay
