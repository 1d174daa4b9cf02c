import Verif.Proofs.PadicNorm
import Mathlib.FieldTheory.Perfect

/-!
# Isolation of all p-adic roots
-/

namespace Verif.Padic

open Polynomial Verif.Rings Verif.RealRoots

section
variable {p : ℕ} [hp : Fact p.Prime]

theorem pq0 : (p : ℚ_[p]) ≠ 0 := by exact_mod_cast hp.out.ne_zero

theorem NormOf.map {F G : ℤ[X]} {κ m : ℤ} (h : NormOf (p := p) F G κ m) {K : Type} [Field K] [CharZero K] :
    G.map (Int.castRingHom K) = C ((p : K) ^ (-m)) * (F.map (Int.castRingHom K)).comp (C ((p : K) ^ κ) * X) := by
  ext k
  have hpK : (p : K) ≠ 0 := by exact_mod_cast hp.out.ne_zero
  rw [coeff_C_mul, comp_C_mul_X_coeff, coeff_map, coeff_map, eq_intCast, eq_intCast]
  have h1 := congrArg (fun q : ℚ => (q : K)) (h k)
  push_cast at h1
  rw [h1, ← zpow_natCast, ← zpow_mul, sub_eq_add_neg, zpow_add₀ hpK]
  ring

theorem NormOf.map_derivative {F G : ℤ[X]} {κ m : ℤ} (h : NormOf (p := p) F G κ m) {K : Type} [Field K] [CharZero K] :
    (derivative G).map (Int.castRingHom K) = C ((p : K) ^ (-m)) * (C ((p : K) ^ κ) * ((derivative F).map (Int.castRingHom K)).comp (C ((p : K) ^ κ) * X)) := by
  rw [← derivative_map, h.map, derivative_C_mul, derivative_comp, derivative_map]
  simp

theorem NormOf.natDegree {F G : ℤ[X]} {κ m : ℤ} (h : NormOf (p := p) F G κ m) : G.natDegree = F.natDegree := by
  have hpK : (p : ℚ) ≠ 0 := by exact_mod_cast hp.out.ne_zero
  have h1 := congrArg Polynomial.natDegree (h.map (K := ℚ))
  rw [natDegree_map_eq_of_injective (RingHom.injective_int _), natDegree_C_mul (zpow_ne_zero _ hpK), natDegree_comp,
    natDegree_C_mul (zpow_ne_zero _ hpK), natDegree_X, mul_one, natDegree_map_eq_of_injective (RingHom.injective_int _)] at h1
  exact h1

theorem sep_of_irreducible {F : ℤ[X]} (hF : Irreducible F) (hd : 2 ≤ F.natDegree) : (F.map (Int.castRingHom ℚ)).Separable := by
  have h1 : F.IsPrimitive := hF.isPrimitive (by omega)
  have h2 := (IsPrimitive.Int.irreducible_iff_irreducible_map_cast h1).1 hF
  exact h2.separable

theorem NormOf.separable {F G : ℤ[X]} {κ m : ℤ} (h : NormOf (p := p) F G κ m) (hs : (F.map (Int.castRingHom ℚ)).Separable) :
    (G.map (Int.castRingHom ℚ)).Separable := by
  have hpK : (p : ℚ) ≠ 0 := by exact_mod_cast hp.out.ne_zero
  rw [Polynomial.Separable, derivative_map] at hs ⊢
  rw [h.map, h.map_derivative]
  have h1 := hs.map (compRingHom (C ((p : ℚ) ^ κ) * X))
  rw [coe_compRingHom] at h1
  have u1 : IsUnit (C ((p : ℚ) ^ (-m))) := isUnit_C.2 (zpow_ne_zero _ hpK).isUnit
  have u2 : IsUnit (C ((p : ℚ) ^ κ)) := isUnit_C.2 (zpow_ne_zero _ hpK).isUnit
  rw [isCoprime_mul_unit_left_left u1, isCoprime_mul_unit_left_right u1, isCoprime_mul_unit_left_right u2]
  exact h1

theorem coe_aeval (F : ℤ[X]) (z : ℤ_[p]) : ((aeval z F : ℤ_[p]) : ℚ_[p]) = (F.map (Int.castRingHom ℚ_[p])).eval (z : ℚ_[p]) := by
  rw [eval_map, aeval_def]
  have := hom_eval₂ F (algebraMap ℤ ℤ_[p]) (PadicInt.Coe.ringHom) z
  rw [RingHom.ext_int (PadicInt.Coe.ringHom.comp (algebraMap ℤ ℤ_[p])) (Int.castRingHom ℚ_[p])] at this
  exact this

theorem NormOf.eval {F G : ℤ[X]} {κ m : ℤ} (h : NormOf (p := p) F G κ m) (z : ℚ_[p]) :
    (G.map (Int.castRingHom ℚ_[p])).eval z = (p : ℚ_[p]) ^ (-m) * (F.map (Int.castRingHom ℚ_[p])).eval ((p : ℚ_[p]) ^ κ * z) := by
  rw [h.map]; simp [eval_comp]

theorem NormOf.eval_derivative {F G : ℤ[X]} {κ m : ℤ} (h : NormOf (p := p) F G κ m) (z : ℚ_[p]) :
    ((derivative G).map (Int.castRingHom ℚ_[p])).eval z =
      (p : ℚ_[p]) ^ (-m) * ((p : ℚ_[p]) ^ κ * ((derivative F).map (Int.castRingHom ℚ_[p])).eval ((p : ℚ_[p]) ^ κ * z)) := by
  rw [h.map_derivative]; simp [eval_comp]

/-- a ball of a root, as `isolate` returns it -/
def RootBall (f : List Int) (b : Ball) (x : ℚ_[p]) : Prop := b.Isolates f x ∧ b.Newton f x

def RCovers (f : List Int) (S : Set ℚ_[p]) (bs : List Ball) : Prop :=
  ∃ xs : List ℚ_[p], List.Forall₂ (RootBall f) bs xs ∧ xs.Nodup ∧ ∀ z, z ∈ xs ↔ z ∈ S

theorem IsCrit.term_le {f : List Int} {bp : BPair} (hc : IsCrit p (polyVal (id : Int → Int) f) bp) {x : ℚ_[p]} (hx : ‖x‖ = (p : ℝ) ^ (-bp.bv)) (k : ℕ) :
    ‖(pv p f).coeff k‖ * ‖x‖ ^ k ≤ (p : ℝ) ^ (-bp.cross) := by
  have := hc.le k
  rw [pv_coeff, hx, ← zpow_natCast, ← zpow_mul]
  convert this using 3; ring

theorem IsCrit.term_eq {f : List Int} {bp : BPair} (hc : IsCrit p (polyVal (id : Int → Int) f) bp) {x : ℚ_[p]} (hx : ‖x‖ = (p : ℝ) ^ (-bp.bv)) :
    ‖(pv p f).coeff bp.i‖ * ‖x‖ ^ bp.i = (p : ℝ) ^ (-bp.cross) := by
  have := hc.eq
  rw [pv_coeff, hx, ← zpow_natCast, ← zpow_mul]
  convert this using 3; ring

/-- Newton's condition says the same for the polynomial and for its normalisation -/
theorem newton_iff {f g : List Int} {bp : BPair} (hc : IsCrit p (polyVal (id : Int → Int) f) bp)
    (hn : NormOf (p := p) (polyVal (id : Int → Int) f) (polyVal (id : Int → Int) g) bp.bv bp.cross) {z : ℤ_[p]} (hz : ‖z‖ = 1) (a : ℚ) (v : ℤ) :
    Ball.Newton f ⟨a, v + bp.bv⟩ ((p : ℚ_[p]) ^ bp.bv * (z : ℚ_[p])) ↔ (p : ℝ) ^ (-v) < ‖aeval z (derivative (polyVal (id : Int → Int) g))‖ := by
  set κ := bp.bv with hκ
  set x : ℚ_[p] := (p : ℚ_[p]) ^ κ * (z : ℚ_[p]) with hx
  have hz' : ‖(z : ℚ_[p])‖ = 1 := hz
  have hxn : ‖x‖ = (p : ℝ) ^ (-κ) := by rw [hx, norm_mul, norm_p_zpow, hz', mul_one]
  have hd : ‖aeval z (derivative (polyVal (id : Int → Int) g))‖ = (p : ℝ) ^ (bp.cross) * ((p : ℝ) ^ (-κ) * ‖(derivative (pv p f)).eval x‖) := by
    rw [PadicInt.norm_def, coe_aeval, hn.eval_derivative, norm_mul, norm_mul, norm_p_zpow, norm_p_zpow, neg_neg, derivative_map]
  have e : (p : ℝ) ^ (-bp.cross) * ‖aeval z (derivative (polyVal (id : Int → Int) g))‖ = (p : ℝ) ^ (-κ) * ‖(derivative (pv p f)).eval x‖ := by
    rw [hd, ← mul_assoc, ← zpow_add₀ p_pos.ne', neg_add_cancel, zpow_zero, one_mul]
  have hkp : (0 : ℝ) < (p : ℝ) ^ (-κ) := zpow_pos p_pos _
  have hmp : (0 : ℝ) < (p : ℝ) ^ (-bp.cross) := zpow_pos p_pos _
  have key : (p : ℝ) ^ (-v) < ‖aeval z (derivative (polyVal (id : Int → Int) g))‖ ↔
      (p : ℝ) ^ (-(v + κ)) * (p : ℝ) ^ (-bp.cross) < ‖(derivative (pv p f)).eval x‖ * ‖x‖ ^ 2 := by
    rw [← mul_lt_mul_iff_right₀ hmp, e, ← mul_lt_mul_iff_right₀ hkp, hxn, neg_add, zpow_add₀ p_pos.ne']
    constructor <;> intro h <;> nlinarith [h]
  rw [key]
  constructor
  · intro h
    have := h bp.i
    rwa [hc.term_eq hxn] at this
  · intro h k
    exact (mul_le_mul_of_nonneg_left (hc.term_le hxn k) (zpow_pos p_pos _).le).trans_lt h

theorem norm_sub_scale (κ : ℤ) (z w : ℚ_[p]) : ‖(p : ℚ_[p]) ^ κ * z - (p : ℚ_[p]) ^ κ * w‖ = (p : ℝ) ^ (-κ) * ‖z - w‖ := by
  rw [← mul_sub, norm_mul, norm_p_zpow]

theorem unscale (κ : ℤ) (y : ℚ_[p]) : (p : ℚ_[p]) ^ κ * ((p : ℚ_[p]) ^ (-κ) * y) = y := by
  rw [← mul_assoc, ← zpow_add₀ pq0, add_neg_cancel, zpow_zero, one_mul]

theorem norm_unscale {κ : ℤ} {y : ℚ_[p]} (h : ‖y‖ = (p : ℝ) ^ (-κ)) : ‖(p : ℚ_[p]) ^ (-κ) * y‖ = 1 := by
  rw [norm_mul, norm_p_zpow, h, ← zpow_add₀ p_pos.ne']; simp

theorem rootBall_of_unit {f g : List Int} {bp : BPair} (hc : IsCrit p (polyVal (id : Int → Int) f) bp)
    (hn : NormOf (p := p) (polyVal (id : Int → Int) f) (polyVal (id : Int → Int) g) bp.bv bp.cross) {b : Ball} {z : ℤ_[p]} (hz : ‖z‖ = 1)
    (h : UnitBall (polyVal (id : Int → Int) g) b z) : RootBall f ⟨(p : ℚ) ^ bp.bv * b.a, b.v + bp.bv⟩ ((p : ℚ_[p]) ^ bp.bv * (z : ℚ_[p])) := by
  set κ := bp.bv with hκ
  obtain ⟨⟨i, hi, hiz⟩, hpos, hroot, hnew⟩ := h
  have hroot' : ∀ w : ℤ_[p], (pv p f).eval ((p : ℚ_[p]) ^ κ * (w : ℚ_[p])) = 0 ↔ aeval w (polyVal (id : Int → Int) g) = 0 := by
    intro w
    rw [← PadicInt.coe_eq_zero, coe_aeval, hn.eval, mul_eq_zero]
    exact ⟨fun h => Or.inr h, fun h => h.resolve_left (zpow_ne_zero _ pq0)⟩
  have hmem : ∀ w : ℚ_[p], Ball.Contains ⟨(p : ℚ) ^ κ * b.a, b.v + κ⟩ ((p : ℚ_[p]) ^ κ * w) ↔ ‖w - (i : ℚ_[p])‖ ≤ (p : ℝ) ^ (-b.v) := by
    intro w
    rw [Ball.Contains]
    simp only [hi]
    push_cast
    rw [norm_sub_scale, neg_add, zpow_add₀ p_pos.ne', mul_comm ((p : ℝ) ^ (-b.v)), mul_le_mul_iff_right₀ (zpow_pos p_pos _)]
  have hiz' : ‖(z : ℚ_[p]) - (i : ℚ_[p])‖ ≤ (p : ℝ) ^ (-b.v) := by
    rw [norm_sub_rev]
    have : (i : ℚ_[p]) - (z : ℚ_[p]) = (((i : ℤ_[p]) - z : ℤ_[p]) : ℚ_[p]) := by push_cast; rfl
    rw [this]; exact hiz
  refine ⟨⟨(hroot' z).2 hroot, (hmem z).2 hiz', ?_⟩, (newton_iff hc hn hz _ _).2 hnew⟩
  intro y hy hyb
  obtain ⟨w, rfl⟩ : ∃ w, y = (p : ℚ_[p]) ^ κ * w := ⟨_, (unscale κ y).symm⟩
  have hw := (hmem w).1 hyb
  have hpw : (p : ℝ) ^ (-b.v) ≤ 1 := by
    rw [← zpow_zero (p : ℝ)]; exact zpow_le_zpow_right₀ p_one.le (by omega)
  have hwz : ‖w - z‖ ≤ (p : ℝ) ^ (-b.v) := by
    have : w - z = (w - i) - (z - i) := by ring
    rw [this]; exact sub_le hw hiz'
  have hw1 : ‖w‖ ≤ 1 := by
    have : w = (w - z) + z := by ring
    rw [this]; exact add_le (hwz.trans hpw) (PadicInt.norm_le_one z)
  have := root_unique (w := (⟨w, hw1⟩ : ℤ_[p])) hroot ((hroot' ⟨w, hw1⟩).1 hy) (lt_of_le_of_lt hwz hnew)
  rw [← this]

theorem pairBalls_spec {fac : Fac} (hfac : FacOk fac) (f : List Int) (hirr : Irreducible (polyVal (id : Int → Int) f))
    (hd : 2 ≤ (polyVal (id : Int → Int) f).natDegree) (bp : BPair)
    (hc : IsCrit p (polyVal (id : Int → Int) f) bp) (hcr : bp.isCritical p f = some true) :
    ∃ bs, pairBalls fac p f bp = some bs ∧ RCovers (p := p) f {x | (pv p f).eval x = 0 ∧ ‖x‖ = (p : ℝ) ^ (-bp.bv)} bs := by
  obtain ⟨g, hg, hn⟩ := normalization_spec hfac f hirr bp hc hcr
  have hsep : ((polyVal (id : Int → Int) g).map (algebraMap ℤ ℚ)).Separable := hn.separable (sep_of_irreducible hirr hd)
  obtain ⟨bs, hbs, zs, h1, h2, h3⟩ := isolate0_covers (p := p) g (by rw [hn.natDegree]; exact hd) hsep
  set κ := bp.bv with hκ
  refine ⟨_, by rw [pairBalls, hg, Option.bind_eq_bind, Option.bind_some, hbs]; rfl, zs.map fun z : ℤ_[p] => (p : ℚ_[p]) ^ κ * (z : ℚ_[p]), ?_, ?_, ?_⟩
  · rw [List.forall₂_map_left_iff, List.forall₂_map_right_iff]
    have h1' : List.Forall₂ (fun b z => UnitBall (polyVal (id : Int → Int) g) b z ∧ z ∈ zs) bs zs := by
      have := List.forall₂_iff_get.1 h1
      refine List.forall₂_iff_get.2 ⟨this.1, fun i hi1 hi2 => ⟨this.2 i hi1 hi2, List.get_mem _ _⟩⟩
    refine h1'.imp fun b z hbz => ?_
    exact rootBall_of_unit hc hn ((h3 z).1 hbz.2).2 hbz.1
  · refine h2.map fun z w e => ?_
    have := mul_left_cancel₀ (zpow_ne_zero κ pq0) e
    exact PadicInt.ext this
  · intro x
    rw [List.mem_map]
    constructor
    · rintro ⟨z, hz, rfl⟩
      obtain ⟨hz1, hz2⟩ := (h3 z).1 hz
      refine ⟨?_, ?_⟩
      · rw [← PadicInt.coe_eq_zero, coe_aeval, hn.eval, mul_eq_zero] at hz1
        exact hz1.resolve_left (zpow_ne_zero _ pq0)
      · rw [norm_mul, norm_p_zpow, show ‖(z : ℚ_[p])‖ = 1 from hz2, mul_one]
    · rintro ⟨hx1, hx2⟩
      have hw := norm_unscale hx2
      refine ⟨⟨(p : ℚ_[p]) ^ (-κ) * x, hw.le⟩, (h3 _).2 ⟨?_, hw⟩, unscale κ x⟩
      rw [← PadicInt.coe_eq_zero]
      refine (coe_aeval _ _).trans ?_
      rw [hn.eval, unscale, show ((polyVal (id : Int → Int) f).map (Int.castRingHom ℚ_[p])).eval x = 0 from hx1, mul_zero]

theorem firstPairs_spec : ∀ (l : List BPair) (seen : List ℤ),
    (∀ bp ∈ firstPairs seen l, bp ∈ l ∧ bp.bv ∉ seen) ∧ (firstPairs seen l).Pairwise (fun a b => a.bv ≠ b.bv) ∧
      ∀ bp ∈ l, bp.bv ∉ seen → ∃ bp' ∈ firstPairs seen l, bp'.bv = bp.bv
  | [], seen => by simp [firstPairs]
  | bp :: l, seen => by
    rw [firstPairs]
    split
    · rename_i h
      rw [List.contains_iff_mem] at h
      obtain ⟨a1, a2, a3⟩ := firstPairs_spec l seen
      refine ⟨fun b hb => ⟨List.mem_cons_of_mem _ (a1 b hb).1, (a1 b hb).2⟩, a2, fun b hb hs => ?_⟩
      rcases List.mem_cons.1 hb with rfl | hb
      · exact absurd h hs
      · exact a3 b hb hs
    · rename_i h
      rw [List.contains_iff_mem] at h
      obtain ⟨a1, a2, a3⟩ := firstPairs_spec l (bp.bv :: seen)
      refine ⟨fun b hb => ?_, ?_, fun b hb hs => ?_⟩
      · rcases List.mem_cons.1 hb with rfl | hb
        · exact ⟨List.mem_cons_self, h⟩
        · exact ⟨List.mem_cons_of_mem _ (a1 b hb).1, fun hh => (a1 b hb).2 (List.mem_cons_of_mem _ hh)⟩
      · rw [List.pairwise_cons]
        exact ⟨fun b hb e => (a1 b hb).2 (by rw [← e]; exact List.mem_cons_self), a2⟩
      · by_cases e : b.bv = bp.bv
        · exact ⟨bp, List.mem_cons_self, e.symm⟩
        · rcases List.mem_cons.1 hb with rfl | hb
          · exact absurd rfl e
          · obtain ⟨b', hb', e'⟩ := a3 b hb (by rw [List.mem_cons]; rintro (h1 | h1); exacts [e h1, hs h1])
            exact ⟨b', List.mem_cons_of_mem _ hb', e'⟩

theorem RCovers.mapM {f : List Int} {S : BPair → Set ℚ_[p]} {g : BPair → Option (List Ball)} : ∀ (l : List BPair),
    (∀ bp ∈ l, ∃ bs, g bp = some bs ∧ RCovers f (S bp) bs) → l.Pairwise (fun a b => ∀ x, x ∈ S a → x ∉ S b) →
    ∃ bss, l.mapM g = some bss ∧ RCovers f {x | ∃ bp ∈ l, x ∈ S bp} bss.flatten
  | [], _, _ => ⟨[], rfl, [], List.Forall₂.nil, List.nodup_nil, by simp⟩
  | bp :: l, h, hd => by
    rw [List.pairwise_cons] at hd
    obtain ⟨bss, e1, xs, a1, a2, a3⟩ := RCovers.mapM l (fun b hb => h b (List.mem_cons_of_mem _ hb)) hd.2
    obtain ⟨bs, e2, ys, b1, b2, b3⟩ := h bp List.mem_cons_self
    refine ⟨bs :: bss, by rw [List.mapM_cons, e2, e1]; rfl, ys ++ xs, ?_, ?_, ?_⟩
    · rw [List.flatten_cons]; exact List.rel_append b1 a1
    · refine List.Nodup.append b2 a2 fun x hx hx' => ?_
      obtain ⟨c, hc, hc'⟩ := (a3 x).1 hx'
      exact hd.1 c hc x ((b3 x).1 hx) hc'
    · intro x
      rw [List.mem_append, a3, b3]
      simp

theorem zero_not_root {f : List Int} (hirr : Irreducible (polyVal (id : Int → Int) f)) (hd : 2 ≤ (polyVal (id : Int → Int) f).natDegree) {x : ℚ_[p]}
    (hx : (pv p f).eval x = 0) : x ≠ 0 := by
  rintro rfl
  rw [← coeff_zero_eq_eval_zero, pv_coeff] at hx
  have h0 : (polyVal (id : Int → Int) f).coeff 0 = 0 := by exact_mod_cast hx
  obtain ⟨q, hq⟩ := X_dvd_iff.2 h0
  rcases hirr.isUnit_or_isUnit hq with h | h
  · exact not_isUnit_X h
  · have := natDegree_eq_zero_of_isUnit h
    rw [hq, natDegree_X_mul h.ne_zero, this] at hd
    omega

theorem squarefree_ok {f : List Int} (hirr : Irreducible (polyVal (id : Int → Int) f)) (hd : 2 ≤ (polyVal (id : Int → Int) f).natDegree) : intGcd.polyIsSquarefree f = some true := by
  obtain ⟨b, hb1, hb2⟩ := polyIsSquarefree_spec (K := ℚ) intGcd_models.toDomain f hirr.ne_zero
  rw [hb1, hb2.2 (sep_of_irreducible hirr hd)]

theorem isolate_spec {fac : Fac} (hfac : FacOk fac) (f : List Int) (hirr : Irreducible (polyVal (id : Int → Int) f))
    (hd : 2 ≤ (polyVal (id : Int → Int) f).natDegree) :
    ∃ bs, isolate fac p f = some bs ∧ RCovers (p := p) f {x | (pv p f).eval x = 0} bs := by
  have h0 := hirr.ne_zero
  obtain ⟨cps, hcps, hcrit, hcomp⟩ := criticalPairs_spec (p := p) f h0
  obtain ⟨a1, a2, a3⟩ := firstPairs_spec cps []
  obtain ⟨bss, e, xs, b1, b2, b3⟩ := RCovers.mapM (p := p) (f := f) (S := fun bp => {x | (pv p f).eval x = 0 ∧ ‖x‖ = (p : ℝ) ^ (-bp.bv)})
    (g := pairBalls fac p f) (firstPairs [] cps)
    (fun bp hbp => pairBalls_spec hfac f hirr hd bp (hcrit bp (a1 bp hbp).1).1 (hcrit bp (a1 bp hbp).1).2)
    (a2.imp fun {a b} hab x hx hx' => hab (by
      have := hx.2.symm.trans hx'.2
      have := zpow_right_injective₀ p_pos p_one.ne' this
      simpa using this))
  have hz : intGcd.toSemiRingOps.poly.isZero f = false := by
    rw [← Bool.not_eq_true, intGcd_models.toSemi.poly.isZero]; exact h0
  refine ⟨bss.flatten, ?_, xs, b1, b2, fun x => ?_⟩
  · rw [isolate, hz, squarefree_ok hirr hd, intGcd_models.toSemi.polyDegree_some f h0]
    simp only [assertThat, Bool.not_false, hd, decide_true, if_true, Option.bind_eq_bind, Option.bind_some, hcps]
    rw [e]; rfl
  · rw [b3]
    constructor
    · rintro ⟨bp, _, h, _⟩; exact h
    · intro h
      have hx := zero_not_root hirr hd h
      obtain ⟨bp, hbp, hv⟩ := hcomp x hx h
      obtain ⟨bp', hbp', hv'⟩ := a3 bp hbp (by simp)
      exact ⟨bp', hbp', h, by rw [hv', hv]; exact norm_zpow hx⟩

end

end Verif.Padic
