import Verif.Proofs.Factor
import Verif.Proofs.MillerRabin
import Mathlib.RingTheory.ZMod.UnitsCyclic

namespace Verif.Natural

theorem good_mem_primeFactors (f : Factored) (hf : Good f) (p : Nat) :
    p ∈ distinctPrimeFactors f ↔ p ∈ ((f.map fun (pk : Nat × Nat) => pk.1 ^ pk.2).prod).primeFactors := by
  have h := good_factorization f hf p
  unfold distinctPrimeFactors
  rw [← Nat.support_factorization, Finsupp.mem_support_iff, h]
  constructor
  · intro hp
    rw [List.mem_map] at hp
    obtain ⟨x, hx, rfl⟩ := hp
    rcases hfi : f.find? (fun pk => pk.1 == x.1) with _ | y
    · rw [List.find?_eq_none] at hfi
      exact absurd (beq_self_eq_true x.1) (hfi x hx)
    · have := (hf.1 y (List.mem_of_find?_eq_some hfi)).2
      have e : ((some y).map (·.2)).getD 0 = y.2 := rfl
      rw [hfi, e]; omega
  · intro hp
    rcases hfi : f.find? (fun pk => pk.1 == p) with _ | y
    · rw [hfi] at hp; simp at hp
    · have h1 := List.find?_some hfi
      simp only [beq_iff_eq] at h1
      rw [List.mem_map]
      exact ⟨y, List.mem_of_find?_eq_some hfi, h1⟩

theorem unit_pow_eq_one_iff (n x : Nat) (hn : 1 < n) (h : Nat.Coprime x n) (e : Nat) :
    (x % n) ^ e % n = 1 ↔ (ZMod.unitOfCoprime x h) ^ e = 1 := by
  rw [← Nat.pow_mod, Units.ext_iff]
  have h1 : ((x ^ e : ℕ) : ZMod n) = ((1 : ℕ) : ZMod n) ↔ x ^ e % n = 1 := by
    rw [ZMod.natCast_eq_natCast_iff', Nat.mod_eq_of_lt hn]
  rw [← h1]
  push_cast
  rw [ZMod.coe_unitOfCoprime]

theorem primRoot_iff (n x : Nat) (hn : 1 ≤ n) (h : Nat.Coprime x n) (ps : List Nat)
    (hps : ∀ p, p ∈ ps ↔ p ∈ (Nat.totient n).primeFactors) :
    ((ps.any fun p => decide ((x % n) ^ (Nat.totient n / p) % n = 1)) = false) ↔
      ∀ v : (ZMod n)ˣ, v ∈ Subgroup.zpowers (ZMod.unitOfCoprime x h) := by
  have hne : NeZero n := ⟨by omega⟩
  have hcard : Fintype.card (ZMod n)ˣ = Nat.totient n := ZMod.card_units_eq_totient n
  by_cases h1 : n = 1
  · subst h1
    have hs : Subsingleton (ZMod 1)ˣ := inferInstance
    simp only [Nat.totient_one]
    constructor
    · intro _ v
      rw [Subsingleton.elim v 1]; exact one_mem _
    · intro _
      rw [List.any_eq_false]
      intro p hp
      rw [hps] at hp
      simp at hp
  have hgt : 1 < n := by omega
  have hphi : 0 < Nat.totient n := Nat.totient_pos.2 (by omega)
  have hord : (∀ v : (ZMod n)ˣ, v ∈ Subgroup.zpowers (ZMod.unitOfCoprime x h)) ↔
      orderOf (ZMod.unitOfCoprime x h) = Nat.totient n := by
    rw [← hcard, ← Nat.card_eq_fintype_card]
    constructor
    · intro hv; exact orderOf_eq_card_of_forall_mem_zpowers hv
    · intro ho v
      have ht : Subgroup.zpowers (ZMod.unitOfCoprime x h) = ⊤ := by
        apply Subgroup.eq_top_of_card_eq
        rw [Nat.card_zpowers, ho]
      rw [ht]; exact Subgroup.mem_top v
  rw [hord, List.any_eq_false]
  constructor
  · intro hall
    apply orderOf_eq_of_pow_and_pow_div_prime hphi
    · rw [← hcard]; exact pow_card_eq_one
    · intro p hp hdvd hc
      have hmem : p ∈ ps := by
        rw [hps, Nat.mem_primeFactors]; exact ⟨hp, hdvd, hphi.ne'⟩
      have := hall p hmem
      simp only [decide_eq_true_eq] at this
      exact this ((unit_pow_eq_one_iff n x hgt h _).2 hc)
  · intro ho p hp hc
    rw [hps, Nat.mem_primeFactors] at hp
    simp only [decide_eq_true_eq] at hc
    have h2 := (unit_pow_eq_one_iff n x hgt h _).1 hc
    have h3 := orderOf_dvd_of_pow_eq_one h2
    rw [ho] at h3
    have h4 : Nat.totient n / p < Nat.totient n := Nat.div_lt_self hphi hp.1.one_lt
    have h5 : 0 < Nat.totient n / p := Nat.div_pos (Nat.le_of_dvd hphi hp.2.1) hp.1.pos
    exact absurd (Nat.le_of_dvd h5 h3) (by omega)

theorem smallDivisorLoop_spec (n d : Nat) : smallDivisorLoop n d = true ↔ ∃ m, d ≤ m ∧ m < 1000 ∧ m ∣ n := by
  fun_induction smallDivisorLoop n d with
  | case1 d h hm => 
    simp only [true_iff]
    exact ⟨d, le_refl _, h, Nat.dvd_of_mod_eq_zero hm⟩
  | case2 d h hm ih =>
    rw [ih]
    constructor
    · rintro ⟨m, h1, h2, h3⟩; exact ⟨m, by omega, h2, h3⟩
    · rintro ⟨m, h1, h2, h3⟩
      refine ⟨m, ?_, h2, h3⟩
      rcases Nat.lt_or_ge d m with h4 | h4
      · omega
      · exact absurd (Nat.mod_eq_zero_of_dvd (show d ∣ n by rwa [show d = m by omega])) hm
  | case3 d h =>
    simp only [Bool.false_eq_true, false_iff, not_exists, not_and]
    intro m h1 h2; omega

end Verif.Natural
