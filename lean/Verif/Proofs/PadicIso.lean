import Verif.Proofs.PadicMath
import Verif.Proofs.PadicTrunc
import Verif.Proofs.RealPoly

/-!
# Isolation of the roots of valuation zero
-/

namespace Verif.Padic

open Polynomial Verif.Rings Verif.RealRoots

section
variable {p : ℕ} [hp : Fact p.Prime]

/-- a ball around a natural number that contains the root `z` of `F` and is small enough for Newton's method -/
structure UnitBall (F : ℤ[X]) (b : Ball) (z : ℤ_[p]) : Prop where
  center : ∃ i : ℕ, b.a = i ∧ ‖(i : ℤ_[p]) - z‖ ≤ (p : ℝ) ^ (-b.v)
  pos : 1 ≤ b.v
  root : aeval z F = 0
  newton : (p : ℝ) ^ (-b.v) < ‖aeval z (derivative F)‖

/-- the balls are those of the elements of `S`, each once -/
def Covers (F : ℤ[X]) (S : Set ℤ_[p]) (bs : List Ball) : Prop :=
  ∃ zs : List ℤ_[p], List.Forall₂ (UnitBall F) bs zs ∧ zs.Nodup ∧ ∀ z, z ∈ zs ↔ z ∈ S

theorem Covers.empty (F : ℤ[X]) {S : Set ℤ_[p]} (h : ∀ z, z ∉ S) : Covers F S [] :=
  ⟨[], List.Forall₂.nil, List.nodup_nil, fun z => ⟨fun h => absurd h (by simp), fun hz => absurd hz (h z)⟩⟩

theorem Covers.append {F : ℤ[X]} {S T : Set ℤ_[p]} {bs cs : List Ball} (h1 : Covers F S bs) (h2 : Covers F T cs) (hd : ∀ z, z ∈ S → z ∉ T) :
    Covers F (S ∪ T) (bs ++ cs) := by
  obtain ⟨zs, a1, a2, a3⟩ := h1
  obtain ⟨ws, b1, b2, b3⟩ := h2
  refine ⟨zs ++ ws, List.rel_append a1 b1, List.Nodup.append a2 b2 ?_, fun z => ?_⟩
  · intro z hz hw; exact hd z ((a3 z).1 hz) ((b3 z).1 hw)
  · rw [List.mem_append, a3, b3]; rfl

theorem Covers.flatMap {F : ℤ[X]} {S : ℕ → Set ℤ_[p]} {g : ℕ → List Ball} : ∀ l : List ℕ, l.Nodup → (∀ k ∈ l, Covers F (S k) (g k)) →
    (∀ k ∈ l, ∀ k' ∈ l, ∀ z, z ∈ S k → z ∈ S k' → k = k') → Covers F {z | ∃ k ∈ l, z ∈ S k} (l.flatMap g)
  | [], _, _, _ => Covers.empty F (by simp)
  | k :: l, hn, h, hd => by
    rw [List.nodup_cons] at hn
    have h1 := Covers.flatMap l hn.2 (fun k hk => h k (List.mem_cons_of_mem _ hk))
      (fun k hk k' hk' => hd k (List.mem_cons_of_mem _ hk) k' (List.mem_cons_of_mem _ hk'))
    have h2 := (h k List.mem_cons_self).append h1 (by
      rintro z hz ⟨k', hk', hz'⟩
      have := hd k List.mem_cons_self k' (List.mem_cons_of_mem _ hk') z hz hz'
      exact hn.1 (this ▸ hk'))
    rw [List.flatMap_cons]
    convert h2 using 1
    ext z
    simp

theorem Covers.congr {F : ℤ[X]} {S T : Set ℤ_[p]} {bs : List Ball} (h : Covers F S bs) (e : ∀ z, z ∈ S ↔ z ∈ T) : Covers F T bs := by
  obtain ⟨zs, a1, a2, a3⟩ := h
  exact ⟨zs, a1, a2, fun z => (a3 z).trans (e z)⟩

theorem int_eval_cast (f : List Int) (i : ℤ) : ((intGcd.polyEvaluate f i : ℤ) : ℤ_[p]) = aeval (i : ℤ_[p]) (polyVal (id : Int → Int) f) := by
  rw [intEval, aeval_def, eval₂_eq_eval_map, show ((i : ℤ) : ℤ_[p]) = algebraMap ℤ ℤ_[p] i by simp, eval_map, eval₂_at_apply]
  simp

theorem int_norm_cast (n : ℤ) : ‖(n : ℚ_[p])‖ = ‖(n : ℤ_[p])‖ := (PadicInt.norm_intCast_eq_padic_norm n).symm

theorem shift_close (i k β : ℕ) : ‖((i + k * p ^ β : ℕ) : ℤ_[p]) - (i : ℤ_[p])‖ ≤ (p : ℝ) ^ (-(β : ℤ)) := by
  have : ((i + k * p ^ β : ℕ) : ℤ_[p]) - (i : ℤ_[p]) = (k : ℤ_[p]) * (p : ℤ_[p]) ^ β := by push_cast; ring
  rw [this, norm_mul, PadicInt.norm_p_pow]
  exact mul_le_of_le_one_left (zpow_pos p_pos _).le (PadicInt.norm_le_one _)

/-- nothing is found in a class without roots -/
theorem isorefine1_nil (f : List Int) (α δ : ℕ) : ∀ (n i β : ℕ), α + 1 - β = n → δ < β →
    ‖aeval ((i : ℕ) : ℤ_[p]) (derivative (polyVal (id : Int → Int) f))‖ = (p : ℝ) ^ (-(δ : ℤ)) →
    (∀ z : ℤ_[p], z ∉ ClassRoots (polyVal (id : Int → Int) f) (i : ℤ_[p]) (δ + 1)) → isorefine1 p f α i β = [] := by
  intro n
  induction n using Nat.strong_induction_on with
  | _ n ih =>
    intro i β hn hβ hd hno
    rw [isorefine1]
    split
    · rfl
    split
    · rename_i h
      exfalso
      rw [lt_intVal (p := p), int_norm_cast, int_eval_cast, Int.cast_natCast] at h
      obtain ⟨z, hz⟩ := hensel_root hd (h.trans_le (zpow_le_zpow_right₀ p_one.le (by omega)))
      exact hno z hz
    split
    · rename_i hle
      rw [List.flatMap_eq_nil_iff]
      intro k _
      have hc := shift_close (p := p) i k β
      have hc' : ‖((i + k * p ^ β : ℕ) : ℤ_[p]) - (i : ℤ_[p])‖ ≤ (p : ℝ) ^ (-((δ + 1 : ℕ) : ℤ)) :=
        hc.trans (zpow_le_zpow_right₀ p_one.le (by omega))
      refine ih _ (by omega) _ _ rfl (by omega) (aeval_deriv_class hd hc') ?_
      rw [classRoots_congr _ hc']
      exact hno
    · rfl

theorem isorefine1_covers (f : List Int) (α δ i : ℕ)
    (hd : ‖aeval ((i : ℕ) : ℤ_[p]) (derivative (polyVal (id : Int → Int) f))‖ = (p : ℝ) ^ (-(δ : ℤ))) :
    Covers (polyVal (id : Int → Int) f) (ClassRoots (polyVal (id : Int → Int) f) (i : ℤ_[p]) (δ + 1)) (isorefine1 p f α i (δ + 1)) := by
  by_cases hz : ∃ z : ℤ_[p], z ∈ ClassRoots (polyVal (id : Int → Int) f) (i : ℤ_[p]) (δ + 1)
  · obtain ⟨z, hz⟩ := hz
    have hs := small_of_root hz hd
    have h1 : (Valu.finite ((δ + 1 : ℕ) : ℤ)).le (intVal p (intGcd.polyEvaluate f ((i : ℕ) : ℤ))) = true := by
      rw [le_intVal (p := p), int_norm_cast, int_eval_cast, Int.cast_natCast]
      exact hs.trans (zpow_le_zpow_right₀ p_one.le (by push_cast; omega))
    have h2 : (Valu.finite (2 * ((δ + 1 : ℕ) : ℤ) - 2)).lt (intVal p (intGcd.polyEvaluate f ((i : ℕ) : ℤ))) = true := by
      rw [lt_intVal (p := p), int_norm_cast, int_eval_cast, Int.cast_natCast]
      exact hs.trans_lt (zpow_lt_zpow_right₀ p_one (by push_cast; omega))
    rw [isorefine1]
    simp only [h1, h2, if_true, Bool.not_true, Bool.false_eq_true, if_false]
    have hdz := aeval_deriv_class hd hz.2
    have hlt : (p : ℝ) ^ (-((δ + 1 : ℕ) : ℤ)) < ‖aeval z (derivative (polyVal (id : Int → Int) f))‖ := by
      rw [hdz]; exact zpow_lt_zpow_right₀ p_one (by push_cast; omega)
    refine ⟨[z], List.Forall₂.cons ⟨⟨i, rfl, ?_⟩, by push_cast; omega, hz.1, hlt⟩ List.Forall₂.nil, List.nodup_singleton _, fun w => ?_⟩
    · rw [norm_sub_rev]; exact hz.2
    · rw [List.mem_singleton]
      constructor
      · rintro rfl; exact hz
      · intro hw
        refine root_unique hz.1 hw.1 (lt_of_le_of_lt ?_ hlt)
        exact close_trans hw.2 (by rw [norm_sub_rev]; exact hz.2)
  · have hno : ∀ z : ℤ_[p], z ∉ ClassRoots (polyVal (id : Int → Int) f) (i : ℤ_[p]) (δ + 1) := fun z h => hz ⟨z, h⟩
    rw [isorefine1_nil f α δ _ i (δ + 1) rfl (by omega) hd hno]
    exact Covers.empty _ hno

theorem quotient_eval (m : ℤ) (f : List Int) (x : ℤ) :
    m ∣ (intOps.quotientRing m).polyEvaluate f x - (polyVal (id : Int → Int) f).eval x := by
  rw [SemiRingOps.polyEvaluate, List.foldl_reverse]
  induction f with
  | nil => simp [EucOps.quotientRing, intOps, intRing]
  | cons c l ih =>
    rw [List.foldr_cons, polyVal_cons]
    set y := List.foldr (fun c y => (intOps.quotientRing m).add ((intOps.quotientRing m).mul y x) c) (intOps.quotientRing m).zero l
    have h1 : m ∣ y * x - intOps.reduce m (y * x) := intOps_models.reduce (v := (id : Int → Int)) m (y * x)
    have h2 : m ∣ (intOps.reduce m (y * x) + c) - intOps.reduce m (intOps.reduce m (y * x) + c) :=
      intOps_models.reduce (v := (id : Int → Int)) m (intOps.reduce m (y * x) + c)
    show m ∣ intOps.reduce m (intOps.reduce m (y * x) + c) - _
    rw [eval_add, eval_mul, eval_C, eval_X]
    have h3 := dvd_sub (dvd_sub (Dvd.dvd.mul_right ih x) h1) h2
    refine h3.trans (dvd_of_eq ?_)
    simp only [id]; ring

theorem derivTest (f : List Int) (i β : ℕ) :
    (intVal p ((intOps.quotientRing ((p ^ β : ℕ) : ℤ)).polyEvaluate (intGcd.polyDerivative f) ((i : ℕ) : ℤ))).lt (.finite β) = true ↔
      (p : ℝ) ^ (-(β : ℤ)) < ‖aeval ((i : ℕ) : ℤ_[p]) (derivative (polyVal (id : Int → Int) f))‖ := by
  rw [intVal_lt (p := p), int_norm_cast, ← not_le, ← not_le, not_iff_not]
  set r := (intOps.quotientRing ((p ^ β : ℕ) : ℤ)).polyEvaluate (intGcd.polyDerivative f) ((i : ℕ) : ℤ)
  have h1 := quotient_eval ((p ^ β : ℕ) : ℤ) (intGcd.polyDerivative f) ((i : ℕ) : ℤ)
  rw [intGcd_models.toSemi.polyDerivative] at h1
  have h2 : aeval ((i : ℕ) : ℤ_[p]) (derivative (polyVal (id : Int → Int) f)) =
      (((derivative (polyVal (id : Int → Int) f)).eval ((i : ℕ) : ℤ) : ℤ) : ℤ_[p]) := by
    rw [aeval_def, eval₂_eq_eval_map, show ((i : ℕ) : ℤ_[p]) = algebraMap ℤ ℤ_[p] ((i : ℕ) : ℤ) by simp, eval_map, eval₂_at_apply]
    simp
  rw [h2, PadicInt.norm_int_le_pow_iff_dvd, PadicInt.norm_int_le_pow_iff_dvd]
  have h3 := h1
  push_cast at h3
  have h4 : (p : ℤ) ^ β ∣ r - eval ((i : ℕ) : ℤ) (derivative (polyVal (id : Int → Int) f)) := by exact_mod_cast h3
  exact (dvd_iff_dvd_of_dvd_sub h4)

theorem isorefine_covers (f : List Int) (α : ℕ)
    (hα : ∀ z : ℤ_[p], aeval z (polyVal (id : Int → Int) f) = 0 → (p : ℝ) ^ (-(α : ℤ)) ≤ ‖aeval z (derivative (polyVal (id : Int → Int) f))‖) :
    ∀ (n i β : ℕ), α + 1 - β = n → 1 ≤ β →
    ‖aeval ((i : ℕ) : ℤ_[p]) (derivative (polyVal (id : Int → Int) f))‖ ≤ (p : ℝ) ^ (-((β : ℤ) - 1)) →
    Covers (polyVal (id : Int → Int) f) (ClassRoots (polyVal (id : Int → Int) f) (i : ℤ_[p]) β)
      (isorefine p f (intGcd.polyDerivative f) α i β) := by
  intro n
  induction n using Nat.strong_induction_on with
  | _ n ih =>
    intro i β hn hβ hd
    rw [isorefine]
    split
    · rename_i h
      rw [derivTest] at h
      obtain ⟨δ, rfl⟩ : ∃ δ, β = δ + 1 := ⟨β - 1, by omega⟩
      have hd' : ‖aeval ((i : ℕ) : ℤ_[p]) (derivative (polyVal (id : Int → Int) f))‖ = (p : ℝ) ^ (-(δ : ℤ)) := by
        apply le_antisymm
        · refine hd.trans (zpow_le_zpow_right₀ p_one.le ?_); push_cast; omega
        · by_contra hlt
          rw [not_le] at hlt
          have := (PadicInt.norm_lt_pow_iff_norm_le_pow_sub_one _ _).1 hlt
          exact absurd h (not_lt.2 (this.trans (zpow_le_zpow_right₀ p_one.le (by push_cast; omega))))
      exact isorefine1_covers f α δ i hd'
    · rename_i h
      rw [derivTest, not_lt] at h
      split
      · rename_i hle
        have h1 : ∀ k ∈ List.range p, Covers (polyVal (id : Int → Int) f)
            (ClassRoots (polyVal (id : Int → Int) f) ((i + k * p ^ β : ℕ) : ℤ_[p]) (β + 1))
            (isorefine p f (intGcd.polyDerivative f) α (i + k * p ^ β) (β + 1)) := by
          intro k _
          refine ih _ (by omega) _ _ rfl (by omega) ?_
          have hc := (aeval_sub_le (derivative (polyVal (id : Int → Int) f)) _ _).trans (shift_close (p := p) i k β)
          have e : aeval ((i + k * p ^ β : ℕ) : ℤ_[p]) (derivative (polyVal (id : Int → Int) f)) =
            (aeval ((i + k * p ^ β : ℕ) : ℤ_[p]) (derivative (polyVal (id : Int → Int) f)) - aeval (i : ℤ_[p]) (derivative (polyVal (id : Int → Int) f)))
              + aeval (i : ℤ_[p]) (derivative (polyVal (id : Int → Int) f)) := by ring
          rw [e]
          refine (iadd_le hc h).trans (zpow_le_zpow_right₀ p_one.le (by push_cast; omega))
        refine (Covers.flatMap (List.range p) List.nodup_range h1 ?_).congr ?_
        · intro k hk k' hk' z hz hz'
          rw [List.mem_range] at hk hk'
          have a1 := hz.2; have a2 := hz'.2
          push_cast at a1 a2
          exact digit_unique hk hk' (by push_cast; exact a1) (by push_cast; exact a2)
        · intro z
          constructor
          · rintro ⟨k, hk, hz1, hz2⟩
            refine ⟨hz1, close_trans (hz2.trans (zpow_le_zpow_right₀ p_one.le (by push_cast; omega))) (shift_close i k β)⟩
          · rintro ⟨hz1, hz2⟩
            obtain ⟨k, hk, hz3⟩ := exists_digit hz2
            exact ⟨k, List.mem_range.2 hk, hz1, by push_cast at hz3 ⊢; exact hz3⟩
      · rename_i hle
        apply Covers.empty
        rintro z ⟨hz1, hz2⟩
        have h1 := hα z hz1
        have h2 := (aeval_sub_le (derivative (polyVal (id : Int → Int) f)) z i).trans hz2
        have h3 : ‖aeval z (derivative (polyVal (id : Int → Int) f))‖ ≤ (p : ℝ) ^ (-(β : ℤ)) := by
          have e : aeval z (derivative (polyVal (id : Int → Int) f)) = (aeval z (derivative (polyVal (id : Int → Int) f)) -
            aeval (i : ℤ_[p]) (derivative (polyVal (id : Int → Int) f))) + aeval (i : ℤ_[p]) (derivative (polyVal (id : Int → Int) f)) := by ring
          rw [e]; exact iadd_le h2 h
        have h4 := h1.trans h3
        rw [zpow_le_zpow_iff_right₀ p_one] at h4
        omega

/-- the classes of the nonzero digits are the units -/
theorem unit_iff_digit (z : ℤ_[p]) : ‖z‖ = 1 ↔ ∃ i ∈ List.range' 1 (p - 1), ‖z - (i : ℤ_[p])‖ ≤ (p : ℝ) ^ (-((1 : ℕ) : ℤ)) := by
  have hp2 := hp.out.two_le
  have key : ∀ w : ℤ_[p], ‖w‖ ≤ (p : ℝ) ^ (-((1 : ℕ) : ℤ)) ↔ ‖w‖ < 1 := by
    intro w
    have := (PadicInt.norm_lt_pow_iff_norm_le_pow_sub_one w 0)
    simpa using this.symm
  constructor
  · intro h
    refine ⟨z.zmodRepr, ?_, ?_⟩
    · rw [List.mem_range'_1]
      have h1 := PadicInt.zmodRepr_lt_p z
      have h2 : z.zmodRepr ≠ 0 := by
        intro e
        have := (PadicInt.norm_natCast_zmodRepr_eq_one_iff (x := z)).2 h
        rw [e] at this; simp at this
      omega
    · rw [key]; exact PadicInt.norm_sub_zmodRepr_lt_one z
  · rintro ⟨i, hi, h⟩
    rw [List.mem_range'_1] at hi
    rw [key] at h
    have hi1 : ‖((i : ℕ) : ℤ_[p])‖ = 1 := by
      have := (PadicInt.norm_int_lt_one_iff_dvd (p := p) (i : ℤ))
      by_contra hne
      have hlt : ‖((i : ℤ) : ℤ_[p])‖ < 1 := lt_of_le_of_ne (PadicInt.norm_le_one _) (by simpa using hne)
      have hdvd := Int.natCast_dvd_natCast.1 (this.1 hlt)
      have := Nat.le_of_dvd (by omega) hdvd
      omega
    rw [inorm_eq_of_close (by rwa [hi1]), hi1]

theorem isolate0_covers (f : List Int) (hd : 2 ≤ (polyVal (id : Int → Int) f).natDegree)
    (hs : ((polyVal (id : Int → Int) f).map (algebraMap ℤ ℚ)).Separable) :
    ∃ bs, isolate0 p f = some bs ∧ Covers (p := p) (polyVal (id : Int → Int) f) {z | aeval z (polyVal (id : Int → Int) f) = 0 ∧ ‖z‖ = 1} bs := by
  set F := polyVal (id : Int → Int) f with hF
  have h0 : F ≠ 0 := fun e => by rw [e, natDegree_zero] at hd; omega
  have hz : intGcd.toSemiRingOps.poly.isZero f = false := by
    rw [← Bool.not_eq_true, intGcd_models.toSemi.poly.isZero]; exact h0
  obtain ⟨b, hb1, hb2⟩ := polyIsSquarefree_spec (K := ℚ) intGcd_models.toDomain f h0
  have hb : b = true := hb2.2 hs
  subst hb
  obtain ⟨d, hd1, hd2⟩ := polyDiscriminant_spec intGcd_models.toDomain f (by rw [← hF]; omega) (Or.inl (natDegree_derivative _))
  have hd2' : d = F.discr := hd2
  have hd0 : F.discr ≠ 0 := by
    intro e
    have e1 := resultant_deriv (f := F) (natDegree_pos_iff_degree_pos.1 (by omega))
    rw [e, mul_zero] at e1
    have hinj : Function.Injective (algebraMap ℤ ℚ) := RingHom.injective_int _
    have e2 := resultant_map_map F (derivative F) F.natDegree (F.natDegree - 1) (algebraMap ℤ ℚ)
    rw [e1, map_zero, ← derivative_map] at e2
    have e3 := resultant_ne_zero (F.map (algebraMap ℤ ℚ)) (derivative (F.map (algebraMap ℤ ℚ))) hs
    apply e3
    rw [natDegree_derivative, natDegree_map_eq_of_injective hinj]
    exact e2
  have hval : intVal p d = .finite (padicValInt p d) := intVal_eq hp.out (by rw [hd2']; exact hd0)
  set α := padicValInt p d with hα
  have hun : (intVal p d).unwrapNat = some α := by
    rw [hval, Valu.unwrapNat, if_neg (by omega)]; rfl
  have hαn : ‖((F.discr : ℤ) : ℤ_[p])‖ = (p : ℝ) ^ (-(α : ℤ)) := by
    rw [← int_norm_cast, ← intVal_norm, ← hd2', hval]; rfl
  refine ⟨(List.range' 1 (p - 1)).flatMap fun i => isorefine p f (intGcd.polyDerivative f) α i 1, by
    rw [isolate0, hz, hb1, intGcd_models.toSemi.polyDegree_some f h0]
    simp only [Bool.not_false, assertThat, if_true, Option.bind_eq_bind, Option.bind_some]
    rw [if_neg (by rw [← hF]; omega), hd1]
    simp only [Option.bind_some, hun], ?_⟩
  have hroots : ∀ z : ℤ_[p], aeval z F = 0 → (p : ℝ) ^ (-(α : ℤ)) ≤ ‖aeval z (derivative F)‖ := by
    intro z hz; rw [← hαn]; exact discr_le hd hz
  have h1 : ∀ i ∈ List.range' 1 (p - 1), Covers F (ClassRoots F (i : ℤ_[p]) 1) (isorefine p f (intGcd.polyDerivative f) α i 1) := by
    intro i _
    refine isorefine_covers f α hroots _ i 1 rfl le_rfl ?_
    simpa using PadicInt.norm_le_one _
  refine (Covers.flatMap _ List.nodup_range' h1 ?_).congr ?_
  · intro k hk k' hk' z hz hz'
    rw [List.mem_range'_1] at hk hk'
    have a1 := hz.2; have a2 := hz'.2
    exact digit_unique (i := 0) (z := z) (β := 0) (by omega) (by omega) (by simpa using a1) (by simpa using a2)
  · intro z
    constructor
    · rintro ⟨i, hi, hz1, hz2⟩
      exact ⟨hz1, (unit_iff_digit z).2 ⟨i, hi, hz2⟩⟩
    · rintro ⟨hz1, hz2⟩
      obtain ⟨i, hi, hz3⟩ := (unit_iff_digit z).1 hz2
      exact ⟨i, hi, hz1, hz3⟩

end

end Verif.Padic
