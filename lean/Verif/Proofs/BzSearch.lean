import Verif.Proofs.BzDm
import Verif.Proofs.Comb
import Verif.Proofs.Factored
import Verif.Proofs.YunMath

/-!
# The search for factors in the Berlekamp–Zassenhaus algorithm
-/

namespace Verif.Rings

open Polynomial Finset

/-- the polynomial -/
noncomputable abbrev bzF (b : BzPrime) : ℤ[X] := polyVal (id : Int → Int) b.poly

/-- the modular factors -/
noncomputable abbrev bzG (b : BzPrime) (i : ℕ) : ℤ[X] := polyVal (id : Int → Int) (b.factors.getD i [])

/-- What is known about a modular factorization with at least two factors. -/
structure BzCtx0 (b : BzPrime) (p : ℤ) (t : ℕ) : Prop where
  ppos : 0 < p
  modulus : b.modulus = p ^ t
  lc : b.leadingCoeff = (bzF b).leadingCoeff
  mf : ModFact p t (bzF b) (range b.factors.length) (bzG b)
  prim : (bzF b).IsPrimitive
  two : 2 ≤ b.factors.length
  small : ∀ G H : ℤ[X], bzF b = G * H → 0 < H.natDegree → ∀ i, 2 * |H.leadingCoeff * G.coeff i| < p ^ t

/-- The same with a degree that fits in a machine word. -/
structure BzCtx (b : BzPrime) (p : ℤ) (t : ℕ) : Prop extends BzCtx0 b p t where
  deg : (bzF b).natDegree < machineRange

/-- The set `S` belongs to a divisor of `f`. -/
def Real (p : ℤ) (t : ℕ) (g : ℕ → ℤ[X]) (f : ℤ[X]) (S : Finset ℕ) : Prop := ∃ G, G ∣ f ∧ Is p t g G S

theorem prim_associated {a c : ℤ} {P Q : ℤ[X]} (hP : P.IsPrimitive) (hQ : Q.IsPrimitive) (ha : a ≠ 0) (e : C a * P = C c * Q) :
    Associated P Q := by
  have h := congrArg content e
  rw [content_C_mul, content_C_mul, hP.content_eq_one, hQ.content_eq_one, mul_one, mul_one] at h
  have h' : Associated a c := (normalize_eq_normalize_iff_associated.1 h)
  obtain ⟨u, rfl⟩ := h'
  have hu : C a * P = C a * (C (u : ℤ) * Q) := by rw [e, C_mul]; ring
  have hP' := mul_left_cancel₀ (C_ne_zero.2 ha) hu
  rw [hP']
  exact associated_unit_mul_left Q _ ((isUnit_C).2 u.isUnit)

theorem sum_toFinset {M : Type} [AddCommMonoid M] (f : ℕ → M) (l : List ℕ) (hl : l.Pairwise (· < ·)) :
    ∑ i ∈ l.toFinset, f i = (l.map f).sum :=
  List.sum_toFinset f (hl.imp fun h => Nat.ne_of_lt h)

theorem prod_toFinset (f : ℕ → ℤ[X]) (l : List ℕ) (hl : l.Pairwise (· < ·)) : ∏ i ∈ l.toFinset, f i = (l.map f).prod :=
  List.prod_toFinset f (hl.imp fun h => Nat.ne_of_lt h)

section
variable {b : BzPrime} {p : ℤ} {t : ℕ} (hb : BzCtx0 b p t)
include hb

theorem BzCtx0.M_pos : 0 < p ^ t := pow_pos hb.ppos t

theorem BzCtx0.natDegree : (bzF b).natDegree = ∑ i ∈ range b.factors.length, (bzG b i).natDegree :=
  hb.mf.natDegree_of_is (Finset.Subset.refl _) hb.mf.lc hb.mf.cong

theorem BzCtx0.natDegree_lt {S : Finset ℕ} (hS : S ⊆ range b.factors.length) (hc : S.card < b.factors.length) :
    ∑ i ∈ S, (bzG b i).natDegree < (bzF b).natDegree := by
  rw [hb.natDegree]
  obtain ⟨i, hi, hi'⟩ : ∃ i ∈ range b.factors.length, i ∉ S := by
    by_contra hcon
    push Not at hcon
    have := Finset.card_le_card hcon
    rw [Finset.card_range] at this
    omega
  exact Finset.sum_lt_sum_of_subset hS hi hi' (hb.mf.pos hi) fun _ _ _ => Nat.zero_le _

theorem BzCtx0.lc_small : 2 * |b.leadingCoeff| < p ^ t := by
  have h := hb.small 1 (bzF b) (by simp) ?_ 0
  · simpa [hb.lc] using h
  · exact lt_of_le_of_lt (Nat.zero_le _) (hb.natDegree_lt (S := ∅) (by simp) (by have := hb.two; simp; omega))

/-- The candidate is a factor if there is one. -/
theorem BzCtx0.candidate (S : Finset ℕ) (hS : S ⊆ range b.factors.length) (hc : S.card < b.factors.length) (prod : List Int)
    (hprod : CongMod (p ^ t) (polyVal (id : Int → Int) prod) (∏ i ∈ S, bzG b i)) :
    ∃ g, bzCandidate b.modulus b.leadingCoeff prod = some g ∧ (polyVal (id : Int → Int) g).IsPrimitive ∧
      Is p t (bzG b) (polyVal (id : Int → Int) g) S ∧
      (polyVal (id : Int → Int) g).natDegree = ∑ i ∈ S, (bzG b i).natDegree ∧
      0 < (bzF b).leadingCoeff * (polyVal (id : Int → Int) g).leadingCoeff ∧
      ∀ G, G ∣ bzF b → Is p t (bzG b) G S → Associated G (polyVal (id : Int → Int) g) := by
  have hlc0 : b.leadingCoeff ≠ 0 := by rw [hb.lc]; intro e; exact hb.mf.lc (by rw [e]; exact dvd_zero p)
  obtain ⟨g, c, L, e1, e2, e3, e4, e5, e6, e7, e8⟩ := bzCandidate_spec (p ^ t) b.leadingCoeff hb.M_pos hlc0 hb.lc_small prod _
    (hb.mf.prod_monic hS) hprod
  have hlc : c * (polyVal (id : Int → Int) g).leadingCoeff = b.leadingCoeff := by
    rw [← e6, e3, leadingCoeff_mul, leadingCoeff_C]
  have hpc : ¬ p ∣ c := fun hd => hb.mf.lc (by rw [← hb.lc, ← hlc]; exact hd.mul_right _)
  refine ⟨g, by rw [hb.modulus]; exact e1, e4, ?_, ?_, ?_, ?_⟩
  · refine CongMod.C_mul_cancel hb.mf.hp hpc ?_
    rw [← mul_assoc, ← C_mul, hlc, ← e3]
    exact e5
  · rw [← hb.mf.natDegree_prod hS, ← e7, e3, natDegree_C_mul e2.ne']
  · have hg0 : (polyVal (id : Int → Int) g).leadingCoeff ≠ 0 := leadingCoeff_ne_zero.2 e4.ne_zero
    rw [← hb.lc, ← hlc, mul_assoc]
    exact mul_pos e2 (mul_self_pos.2 hg0)
  · intro G ⟨H, hGH⟩ hi
    obtain ⟨hG, hH⟩ := lc_of_mul hGH hb.mf.lc
    have hGd := hb.mf.natDegree_of_is hS hG hi
    have hF0 : bzF b ≠ 0 := hb.prim.ne_zero
    have hG0 : G ≠ 0 := fun e => hF0 (by rw [hGH, e, zero_mul])
    have hH0 : H ≠ 0 := fun e => hF0 (by rw [hGH, e, mul_zero])
    have hHd : 0 < H.natDegree := by
      have h1 := hb.natDegree_lt hS hc
      rw [← hGd, hGH, natDegree_mul hG0 hH0] at h1
      omega
    have hQ : C H.leadingCoeff * G = L := by
      refine e8 _ (fun i => ?_) ?_
      · rw [coeff_C_mul]; exact hb.small G H hGH hHd i
      · have := (CongMod.refl (p ^ t) (C H.leadingCoeff)).mul hi
        rwa [← mul_assoc, ← C_mul, mul_comm H.leadingCoeff, ← leadingCoeff_mul, ← hGH, ← hb.lc] at this
    rw [e3] at hQ
    exact prim_associated (isPrim_of_dvd hb.prim ⟨H, hGH⟩) e4 (leadingCoeff_ne_zero.2 hH0) hQ

end

end Verif.Rings
