import Mathlib.RingTheory.AdjoinRoot
import Mathlib.RingTheory.Radical.Basic
import Mathlib.LinearAlgebra.FreeModule.Finite.Quotient
import Mathlib.LinearAlgebra.FreeModule.IdealQuotient
import Mathlib.RingTheory.Polynomial.Quotient
import Mathlib.LinearAlgebra.Dimension.FreeAndStrongRankCondition

/-! The algebra behind factoring over a number field: the factors of `P` over `K` and the factors of the polynomial of a generator of
`K[x]/(P)` correspond to each other. -/

namespace Verif.Anf
open Polynomial

variable {E K : Type} [Field E] [Field K] [Algebra E K] [FiniteDimensional E K] {P : K[X]} {a : AdjoinRoot P} {q : E[X]}

/-- the ideal of `L = K[x]/(P)` that belongs to a factor of `q` -/
noncomputable abbrev fIdeal (a : AdjoinRoot P) (g : E[X]) : Ideal (AdjoinRoot P) := Ideal.span {aeval a g}

theorem mem_fIdeal (hs : Function.Surjective (aeval a : E[X] →ₐ[E] AdjoinRoot P)) (hk : ∀ r : E[X], aeval a r = 0 ↔ q ∣ r) {g : E[X]}
    (hg : g ∣ q) (r : E[X]) : aeval a r ∈ fIdeal a g ↔ g ∣ r := by
  rw [Ideal.mem_span_singleton]
  constructor
  · rintro ⟨l, hl⟩
    obtain ⟨s, rfl⟩ := hs l
    rw [← map_mul, ← sub_eq_zero, ← map_sub, hk] at hl
    have := hg.trans hl
    rwa [dvd_sub_left (dvd_mul_right g s)] at this
  · rintro ⟨s, rfl⟩
    rw [map_mul]; exact dvd_mul_right _ _

/-- the quotient of `L` by this ideal is `E[y]/(g)` -/
theorem fQuot (hs : Function.Surjective (aeval a : E[X] →ₐ[E] AdjoinRoot P)) (hk : ∀ r : E[X], aeval a r = 0 ↔ q ∣ r) {g : E[X]}
    (hg : g ∣ q) : Nonempty ((E[X] ⧸ Ideal.span {g}) ≃ₐ[E] (AdjoinRoot P ⧸ fIdeal a g)) := by
  let φ : E[X] →ₐ[E] (AdjoinRoot P ⧸ fIdeal a g) := (Ideal.Quotient.mkₐ E (fIdeal a g)).comp (aeval a)
  have hφ : Function.Surjective φ := (Ideal.Quotient.mkₐ_surjective E _).comp hs
  have hker : RingHom.ker φ = Ideal.span {g} := by
    ext r
    rw [RingHom.mem_ker, Ideal.mem_span_singleton, ← mem_fIdeal hs hk hg]
    exact Ideal.Quotient.eq_zero_iff_mem
  exact ⟨(Ideal.quotientEquivAlgOfEq E hker.symm).trans (Ideal.quotientKerAlgEquivOfSurjective hφ)⟩

theorem factor_core (hP : P ≠ 0) (hs : Function.Surjective (aeval a : E[X] →ₐ[E] AdjoinRoot P)) (hk : ∀ r : E[X], aeval a r = 0 ↔ q ∣ r)
    {g : E[X]} (hg : g ∣ q) (hirr : Irreducible g) {p : K[X]} (hp : p.Monic) (hdeg : Module.finrank E K * p.natDegree = g.natDegree)
    (hmem : AdjoinRoot.mk P p ∈ fIdeal a g) :
    Irreducible p ∧ ∀ r, p ∣ r ↔ AdjoinRoot.mk P r ∈ fIdeal a g := by
  obtain ⟨e⟩ := fQuot hs hk hg
  let J : Ideal K[X] := (fIdeal a g).comap (AdjoinRoot.mk P)
  haveI : (Ideal.span {g}).IsMaximal := PrincipalIdealRing.isMaximal_of_irreducible hirr
  haveI hmaxI : (fIdeal a g).IsMaximal := by
    apply Ideal.Quotient.maximal_of_isField
    exact MulEquiv.isField ((Ideal.Quotient.maximal_ideal_iff_isField_quotient _).1 inferInstance) e.symm.toMulEquiv
  haveI hmax : J.IsMaximal := Ideal.comap_isMaximal_of_surjective _ AdjoinRoot.mk_surjective
  obtain ⟨m, hm⟩ := (IsPrincipalIdealRing.principal J).principal
  change J = Ideal.span {m} at hm
  have hpJ : p ∈ J := hmem
  have hm0 : m ≠ 0 := by
    rintro rfl
    rw [hm, Ideal.mem_span_singleton, zero_dvd_iff] at hpJ
    exact hp.ne_zero hpJ
  have hmirr : Irreducible m := by
    have h1 : (Ideal.span {m}).IsPrime := hm ▸ hmax.isPrime
    exact ((Ideal.span_singleton_prime hm0).1 h1).irreducible
  -- dimensions
  let ψ : K[X] →ₐ[K] (AdjoinRoot P ⧸ fIdeal a g) := (Ideal.Quotient.mkₐ K (fIdeal a g)).comp (AdjoinRoot.mkₐ P)
  have hψ : Function.Surjective ψ := (Ideal.Quotient.mkₐ_surjective K _).comp AdjoinRoot.mk_surjective
  have hker : RingHom.ker ψ = Ideal.span {m} := by
    rw [← hm]
    ext r
    rw [RingHom.mem_ker]
    exact Ideal.Quotient.eq_zero_iff_mem
  have e2 : (K[X] ⧸ Ideal.span {m}) ≃ₐ[K] (AdjoinRoot P ⧸ fIdeal a g) :=
    (Ideal.quotientEquivAlgOfEq K hker.symm).trans (Ideal.quotientKerAlgEquivOfSurjective hψ)
  have d1 : Module.finrank K (AdjoinRoot P ⧸ fIdeal a g) = m.natDegree := by
    rw [← e2.toLinearEquiv.finrank_eq, finrank_quotient_span_eq_natDegree]
  have d2 : Module.finrank E (AdjoinRoot P ⧸ fIdeal a g) = g.natDegree := by
    rw [← e.toLinearEquiv.finrank_eq, finrank_quotient_span_eq_natDegree]
  have d3 := Module.finrank_mul_finrank E K (AdjoinRoot P ⧸ fIdeal a g)
  rw [d1, d2, ← hdeg] at d3
  have hpos : 0 < Module.finrank E K := Module.finrank_pos
  have d4 : m.natDegree = p.natDegree := Nat.eq_of_mul_eq_mul_left hpos d3
  have hmp : m ∣ p := by rw [hm, Ideal.mem_span_singleton] at hpJ; exact hpJ
  have hass : Associated m p := by
    obtain ⟨c, hc⟩ := hmp
    have hc0 : c ≠ 0 := by rintro rfl; rw [mul_zero] at hc; exact hp.ne_zero hc
    have : c.natDegree = 0 := by
      have := natDegree_mul hm0 hc0
      rw [← hc] at this; omega
    have hcu : IsUnit c := by
      rw [Polynomial.isUnit_iff_degree_eq_zero, degree_eq_natDegree hc0, this]; rfl
    obtain ⟨u, rfl⟩ := hcu
    exact ⟨u, hc.symm⟩
  refine ⟨(hass.irreducible_iff).1 hmirr, fun r => ?_⟩
  rw [← hass.dvd_iff_dvd_left, ← Ideal.mem_span_singleton, ← hm]
  rfl

theorem generator_squarefree (hP : Squarefree P) (hP0 : P ≠ 0) (hq : q ≠ 0) (hk : ∀ r : E[X], aeval a r = 0 ↔ q ∣ r) : Squarefree q := by
  rw [← isRadical_iff_squarefree_of_ne_zero hq]
  have hr : IsRadical P := (isRadical_iff_squarefree_of_ne_zero hP0).2 hP
  intro n x hx
  rw [← hk, map_pow] at hx
  rw [← hk]
  obtain ⟨y, hy⟩ := AdjoinRoot.mk_surjective (aeval a x)
  rw [← hy, ← map_pow, AdjoinRoot.mk_eq_zero] at hx
  rw [← hy, AdjoinRoot.mk_eq_zero]
  exact hr n y hx

/-- the factors found multiply to `P` -/
theorem product_core (hP : P ≠ 0) (hs : Function.Surjective (aeval a : E[X] →ₐ[E] AdjoinRoot P)) (hk : ∀ r : E[X], aeval a r = 0 ↔ q ∣ r)
    (hq : q.natDegree = Module.finrank E K * P.natDegree) (l : List (E[X] × K[X])) (hl : ∀ x ∈ l, Irreducible x.1 ∧ x.1 ∣ q ∧ x.2.Monic ∧
      Module.finrank E K * x.2.natDegree = x.1.natDegree ∧ AdjoinRoot.mk P x.2 ∈ fIdeal a x.1)
    (hnd : l.Pairwise fun x y => ¬ x.1 ∣ y.1) (hprod : (l.map fun x => x.1.natDegree).sum = q.natDegree) :
    (∀ x ∈ l, Irreducible x.2) ∧ (l.map Prod.snd).Nodup ∧ C P.leadingCoeff * (l.map Prod.snd).prod = P := by
  have hc : ∀ x ∈ l, Irreducible x.2 ∧ ∀ r, x.2 ∣ r ↔ AdjoinRoot.mk P r ∈ fIdeal a x.1 := fun x hx =>
    factor_core hP hs hk (hl x hx).2.1 (hl x hx).1 (hl x hx).2.2.1 (hl x hx).2.2.2.1 (hl x hx).2.2.2.2
  have hne : l.Pairwise fun x y => x.2 ≠ y.2 := by
    rw [List.pairwise_iff_getElem] at hnd ⊢
    intro i j hi hj hij e
    apply hnd i j hi hj hij
    rw [← mem_fIdeal hs hk (hl _ (List.getElem_mem hi)).2.1]
    obtain ⟨y, hy⟩ := AdjoinRoot.mk_surjective (aeval a (l[j].1))
    rw [← hy, ← (hc _ (List.getElem_mem hi)).2, e, (hc _ (List.getElem_mem hj)).2, hy]
    exact Ideal.mem_span_singleton_self _
  have hnodup : (l.map Prod.snd).Nodup := by
    rw [List.Nodup, List.pairwise_map]; exact hne
  refine ⟨fun x hx => (hc x hx).1, hnodup, ?_⟩
  have hdvd : ∀ p ∈ l.map Prod.snd, p ∣ P := by
    intro p hp
    obtain ⟨x, hx, rfl⟩ := List.mem_map.1 hp
    rw [(hc x hx).2, AdjoinRoot.mk_self]
    exact Ideal.zero_mem _
  have hmon : ∀ p ∈ l.map Prod.snd, p.Monic := by
    intro p hp
    obtain ⟨x, hx, rfl⟩ := List.mem_map.1 hp
    exact (hl x hx).2.2.1
  have hirr : ∀ p ∈ l.map Prod.snd, Irreducible p := by
    intro p hp
    obtain ⟨x, hx, rfl⟩ := List.mem_map.1 hp
    exact (hc x hx).1
  have hpd : (l.map Prod.snd).prod ∣ P := by
    classical
    have h1 : ∏ p ∈ (l.map Prod.snd).toFinset, p ∣ P := by
      apply Finset.prod_dvd_of_coprime
      · intro x hx y hy hxy
        have hx' := List.mem_toFinset.1 hx
        have hy' := List.mem_toFinset.1 hy
        refine ((hirr x hx').coprime_iff_not_dvd).2 fun hd => hxy ?_
        exact eq_of_monic_of_associated (hmon x hx') (hmon y hy') ((hirr x hx').associated_of_dvd (hirr y hy') hd)
      · intro x hx
        exact hdvd x (List.mem_toFinset.1 hx)
    rwa [List.prod_toFinset _ hnodup, List.map_id'] at h1
  have hpm : (l.map Prod.snd).prod.Monic := monic_list_prod_of (l.map Prod.snd) hmon
  have hdeg : (l.map Prod.snd).prod.natDegree = P.natDegree := by
    have hpos : 0 < Module.finrank E K := Module.finrank_pos
    apply Nat.eq_of_mul_eq_mul_left hpos
    rw [← hq, ← hprod, natDegree_list_prod_of (l.map Prod.snd) hmon, List.map_map, ← List.sum_map_mul_left]
    congr 1
    apply List.map_congr_left
    intro x hx
    exact (hl x hx).2.2.2.1
  obtain ⟨c, hc'⟩ := hpd
  have hc0 : c ≠ 0 := by rintro rfl; rw [mul_zero] at hc'; exact hP hc'
  have : c.natDegree = 0 := by
    have := natDegree_mul hpm.ne_zero hc0
    rw [← hc'] at this; omega
  rw [natDegree_eq_zero] at this
  obtain ⟨k, rfl⟩ := this
  have hk' : P.leadingCoeff = k := by
    conv_lhs => rw [hc']
    rw [leadingCoeff_mul, hpm.leadingCoeff, one_mul, leadingCoeff_C]
  rw [hk', mul_comm]
  exact hc'.symm
where
  monic_list_prod_of : ∀ l : List K[X], (∀ p ∈ l, p.Monic) → l.prod.Monic
    | [], _ => monic_one
    | p :: l, h => (h p (by simp)).mul (monic_list_prod_of l fun x hx => h x (by simp [hx]))
  natDegree_list_prod_of : ∀ l : List K[X], (∀ p ∈ l, p.Monic) → l.prod.natDegree = (l.map natDegree).sum
    | [], _ => by simp
    | p :: l, h => by
      rw [List.prod_cons, (h p (by simp)).natDegree_mul (monic_list_prod_of l fun x hx => h x (by simp [hx])),
        natDegree_list_prod_of l fun x hx => h x (by simp [hx])]
      simp

end Verif.Anf
