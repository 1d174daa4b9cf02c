import Verif.Proofs.SymmetricMath
import Mathlib.RingTheory.MvPolynomial.Symmetric.FundamentalTheorem
import Mathlib.Data.List.NodupEquivFin

/-!
# The expression of a symmetric polynomial is unique
-/

namespace Verif.Rings

open MvPolynomial

variable {R : Type} [CommRing R]

theorem esymIn_eq_rename (vars : List ℕ) (k : ℕ) : esymIn R k vars = rename vars.get (esymm (Fin vars.length) R k) := by
  have h1 : (esymm (Fin vars.length) R k) = ((Finset.univ.val.map X : Multiset (MvPolynomial (Fin vars.length) R))).esymm k := by
    rw [esymm_eq_multiset_esymm]
  rw [h1]
  have h2 := esymm_map (rename (R := R) vars.get).toRingHom (Finset.univ.val.map X) k
  refine Eq.trans ?_ h2.symm
  rw [Multiset.map_map, esymIn]
  congr 1
  have h3 : (Finset.univ : Finset (Fin vars.length)).val = ((List.finRange vars.length : List _) : Multiset _) := rfl
  rw [h3, Multiset.map_coe, Multiset.coe_eq_coe]
  have h4 : vars.map (X : ℕ → MvPolynomial ℕ R) = (List.finRange vars.length).map (X ∘ vars.get) := by
    conv_lhs => rw [← List.map_get_finRange vars]
    rw [List.map_map]
  rw [h4]
  apply List.Perm.of_eq
  apply List.map_congr_left
  intro i _
  simp

theorem esymSubst_injective {e vars : List ℕ} (he : e.Nodup) (hn : vars.Nodup) (hlen : e.length = vars.length) {G G' : MvPolynomial ℕ R}
    (hG : ∀ x ∈ G.vars, x ∈ e) (hG' : ∀ x ∈ G'.vars, x ∈ e)
    (h : aeval (esymSubst R e vars) G = aeval (esymSubst R e vars) G') : G = G' := by
  have hrep : ∀ P : MvPolynomial ℕ R, (∀ x ∈ P.vars, x ∈ e) →
      ∃ Q : MvPolynomial (Fin vars.length) R, rename (fun i => e.get (i.cast hlen.symm)) Q = P := by
    intro P hP
    have h1 : P ∈ supported R {x | x ∈ e} := mem_supported.2 fun x hx => hP x hx
    rw [supported_eq_range_rename] at h1
    obtain ⟨Q, rfl⟩ := h1
    let f := List.Nodup.getEquiv e he
    refine ⟨rename (fun x => (f.symm x).cast hlen) Q, ?_⟩
    change _ = rename _ Q
    rw [rename_rename]
    congr 1
    apply congrArg
    funext x
    have : (f (f.symm x) : ℕ) = x := by rw [Equiv.apply_symm_apply]
    exact this
  have hval : ∀ Q : MvPolynomial (Fin vars.length) R, aeval (esymSubst R e vars) (rename (fun i => e.get (i.cast hlen.symm)) Q) =
      rename vars.get (esymmAlgHom (Fin vars.length) R vars.length Q).val := by
    intro Q
    rw [esymmAlgHom_apply, aeval_rename]
    have : (rename vars.get) ((aeval fun i : Fin vars.length => esymm (Fin vars.length) R (i + 1)) Q) =
        ((rename vars.get).comp (aeval fun i : Fin vars.length => esymm (Fin vars.length) R (i + 1))) Q := rfl
    rw [this]
    congr 1
    apply MvPolynomial.algHom_ext
    intro i
    rw [aeval_X, AlgHom.comp_apply, aeval_X, ← esymIn_eq_rename, Function.comp, esymSubst, if_pos (List.get_mem _ _), List.get_eq_getElem,
      he.idxOf_getElem]
    rfl
  obtain ⟨Q, rfl⟩ := hrep G hG
  obtain ⟨Q', rfl⟩ := hrep G' hG'
  rw [hval, hval] at h
  have h1 := Subtype.ext (rename_injective _ (List.nodup_iff_injective_get.1 hn) h)
  rw [esymmAlgHom_injective (σ := Fin vars.length) (R := R) (by simp) h1]

end Verif.Rings
