import Verif.Proofs.Natural
import Mathlib.FieldTheory.Finite.Basic
import Mathlib.NumberTheory.ArithmeticFunction.Misc
import Mathlib.Data.Nat.Totient
import Mathlib.GroupTheory.OrderOfElement

namespace Verif.Natural

open List

/-- good factorization data: prime keys, positive exponents, distinct keys -/
def Good (f : Factored) : Prop :=
  (∀ pk ∈ f, pk.1.Prime ∧ 0 < pk.2) ∧ (f.map (·.1)).Nodup

theorem foldl_mul_eq {α : Type} (g : α → Nat) (l : List α) (t : Nat) :
    l.foldl (fun t x => t * g x) t = t * (l.map g).prod := by
  induction l generalizing t with
  | nil => simp
  | cons a l ih => simp [ih, mul_assoc]

theorem expand_eq (f : Factored) : expand f = (f.map fun pk => pk.1 ^ pk.2).prod := by
  unfold expand
  rw [foldl_mul_eq]
  simp [pow_eq]

theorem eulerTotient_eq (f : Factored) :
    eulerTotient f = (f.map fun pk => (pk.1 - 1) * pk.1 ^ (pk.2 - 1)).prod := by
  unfold eulerTotient
  rw [foldl_mul_eq]
  simp [pow_eq]

theorem mulPrime_prod (f : Factored) (p : Nat) :
    ((mulPrime f p).map fun pk => pk.1 ^ pk.2).prod = (f.map fun pk => pk.1 ^ pk.2).prod * p := by
  induction f with
  | nil => simp [mulPrime]
  | cons a t ih =>
    obtain ⟨q, k⟩ := a
    simp only [mulPrime]
    split
    · subst_vars; simp [pow_succ]; ring
    · simp [ih, mul_assoc]

theorem mulPrime_keys (f : Factored) (p : Nat) (x : Nat) :
    x ∈ (mulPrime f p).map (·.1) ↔ x ∈ f.map (·.1) ∨ x = p := by
  induction f with
  | nil => simp [mulPrime]
  | cons a t ih =>
    obtain ⟨q, k⟩ := a
    simp only [mulPrime]
    split
    · subst_vars
      simp only [List.map_cons, List.mem_cons]
      tauto
    · simp only [List.map_cons, List.mem_cons, ih]
      tauto

theorem mulPrime_good (f : Factored) (p : Nat) (hf : Good f) (hp : p.Prime) : Good (mulPrime f p) := by
  induction f with
  | nil => simp [mulPrime, Good, hp]
  | cons a t ih =>
    obtain ⟨q, k⟩ := a
    have ht : Good t := ⟨fun pk h => hf.1 pk (by simp [h]), by have := hf.2; simp at this; simpa using this.2⟩
    simp only [mulPrime]
    split
    · subst_vars
      refine ⟨?_, by simpa using hf.2⟩
      intro pk h
      simp only [List.mem_cons] at h
      rcases h with rfl | h
      · exact ⟨hp, by simp⟩
      · exact ht.1 pk h
    · rename_i hqp
      obtain ⟨h1, h2⟩ := ih ht
      refine ⟨?_, ?_⟩
      · intro pk h
        simp only [List.mem_cons] at h
        rcases h with rfl | h
        · exact hf.1 _ (by simp)
        · exact h1 pk h
      · simp only [List.map_cons, List.nodup_cons]
        refine ⟨?_, h2⟩
        rw [mulPrime_keys]
        have := hf.2
        simp only [List.map_cons, List.nodup_cons] at this
        tauto

theorem divideOut_spec (d n : Nat) (f : Factored) (hf : Good f) (hn : n ≠ 0) (hd : 2 ≤ d)
    (hp : d ∣ n → d.Prime) :
    Good (divideOut d n f).2 ∧ (divideOut d n f).1 ≠ 0 ∧ ¬ d ∣ (divideOut d n f).1 ∧
    (divideOut d n f).1 ∣ n ∧
    (divideOut d n f).1 * ((divideOut d n f).2.map fun pk => pk.1 ^ pk.2).prod
      = n * (f.map fun pk => pk.1 ^ pk.2).prod := by
  fun_induction divideOut d n f with
  | case1 n f h ih =>
    have hdvd : d ∣ n := Nat.dvd_of_mod_eq_zero h.1
    have h1 : n / d ≠ 0 := by
      have := Nat.div_pos (Nat.le_of_dvd (by omega) hdvd) (by omega); omega
    obtain ⟨a1, a2, a3, a4, a5⟩ := ih (mulPrime_good f d hf (hp hdvd)) h1 (fun _ => hp hdvd)
    refine ⟨a1, a2, a3, a4.trans (Nat.div_dvd_of_dvd hdvd), ?_⟩
    rw [a5, mulPrime_prod]
    conv_rhs => rw [← Nat.div_mul_cancel hdvd]
    ring
  | case2 n f h =>
    refine ⟨hf, hn, ?_, dvd_refl _, rfl⟩
    intro hc
    exact h ⟨Nat.mod_eq_zero_of_dvd hc, hd, hn⟩

theorem prime_of_no_small (n d : Nat) (hd : 2 ≤ d) (hdn : d ∣ n)
    (h : ∀ m, 2 ≤ m → m < d → ¬ m ∣ n) : d.Prime := by
  rw [Nat.prime_def_lt]
  refine ⟨hd, fun m hm hmd => ?_⟩
  by_contra hm1
  have : m ≠ 0 := by rintro rfl; simp at hmd; omega
  exact h m (by omega) hm (hmd.trans hdn)

theorem trialLoop_spec (maxD d n : Nat) (f : Factored) (hf : Good f) (hn : n ≠ 0) (hd : 2 ≤ d)
    (h : ∀ m, 2 ≤ m → m < d → ¬ m ∣ n) :
    Good (trialLoop maxD d n f).2 ∧ (trialLoop maxD d n f).1 ≠ 0 ∧
    (trialLoop maxD d n f).1 * ((trialLoop maxD d n f).2.map fun pk => pk.1 ^ pk.2).prod
      = n * (f.map fun pk => pk.1 ^ pk.2).prod ∧
    (trialLoop maxD d n f).1 ∣ n ∧
    (((trialLoop maxD d n f).1 = 1 ∨ (trialLoop maxD d n f).1.Prime) ∨
      ∀ m, 2 ≤ m → m ≤ maxD → ¬ m ∣ (trialLoop maxD d n f).1) := by
  fun_induction trialLoop maxD d n f with
  | case1 d n f hc r ih =>
    obtain ⟨a1, a2, a3, a4, a5⟩ := divideOut_spec d n f hf hn hd (fun hdn => prime_of_no_small n d hd hdn h)
    obtain ⟨b1, b2, b3, b4, b5⟩ := ih a1 a2 (by omega) (by
      intro m hm1 hm2 hm3
      by_cases hmd : m = d
      · subst hmd; exact a3 hm3
      · exact h m hm1 (by omega) (hm3.trans a4))
    exact ⟨b1, b2, by rw [b3]; exact a5, b4.trans a4, b5⟩
  | case2 d n f hc =>
    refine ⟨hf, hn, rfl, dvd_refl _, ?_⟩
    by_cases hlt : d * d ≤ n
    · right
      intro m hm1 hm2
      exact h m hm1 (by by_contra h1; exact hc ⟨hlt, by omega⟩)
    · left
      by_cases h1 : n = 1
      · exact Or.inl h1
      · right
        by_contra hnp
        have h2 := Nat.minFac_sq_le_self (by omega) hnp
        have h3 : n.minFac < d := by
          by_contra h3
          have := Nat.mul_le_mul (show d ≤ n.minFac by omega) (show d ≤ n.minFac by omega)
          rw [pow_two] at h2
          exact hlt (this.trans h2)
        exact h _ (Nat.minFac_prime h1).two_le h3 (Nat.minFac_dvd n)

theorem smallestFactorLoop_spec (n d : Nat) (hn : 2 ≤ n) (hd : 2 ≤ d)
    (h : ∀ m, 2 ≤ m → m < d → ¬ m ∣ n) :
    (smallestFactorLoop n d).Prime ∧ smallestFactorLoop n d ∣ n := by
  fun_induction smallestFactorLoop n d with
  | case1 d hle hm => exact ⟨prime_of_no_small n d hd (Nat.dvd_of_mod_eq_zero hm) h, Nat.dvd_of_mod_eq_zero hm⟩
  | case2 d hle hm ih =>
    apply ih (by omega)
    intro m hm1 hm2
    by_cases hmd : m = d
    · subst hmd; exact fun hc => hm (Nat.mod_eq_zero_of_dvd hc)
    · exact h m hm1 (by omega)
  | case3 d hle =>
    refine ⟨?_, dvd_refl _⟩
    by_contra hnp
    have h2 := Nat.minFac_sq_le_self (by omega) hnp
    have h3 : n.minFac < d := by
      by_contra h3
      have := Nat.mul_le_mul (show d ≤ n.minFac by omega) (show d ≤ n.minFac by omega)
      rw [pow_two] at h2
      omega
    exact h _ (Nat.minFac_prime (by omega)).two_le h3 (Nat.minFac_dvd n)

theorem rhoInner_spec (n x y d : Nat) (h : rhoInner n x y = some d) : 1 < d ∧ d ∣ n := by
  revert h
  refine rhoInner.partial_correctness n (fun _ _ d => 1 < d ∧ d ∣ n) ?_ x y d
  intro f ih x y r h
  simp only at h
  split at h
  · rename_i hd
    simp only [Option.some.injEq] at h
    subst h
    exact ⟨hd, by rw [gcd_eq]; exact Nat.gcd_dvd_right _ _⟩
  · exact ih _ _ _ h

theorem rhoOuter_spec (n s d : Nat) (h : rhoOuter n s = some d) : 1 < d ∧ d ∣ n ∧ d ≠ n := by
  revert h
  refine rhoOuter.partial_correctness n (fun _ d => 1 < d ∧ d ∣ n ∧ d ≠ n) ?_ s d
  intro f ih s r h
  simp only [Option.bind_eq_bind, Option.bind_eq_some_iff] at h
  obtain ⟨d, hd, h⟩ := h
  split at h
  · exact ih _ _ h
  · simp only [Option.some.injEq] at h
    subst h
    rename_i hne
    obtain ⟨h1, h2⟩ := rhoInner_spec _ _ _ _ hd
    exact ⟨h1, h2, hne⟩

theorem nextToFactor_spec (f : Factorizer) :
    (f.nextToFactor.2.primeFactors = f.primeFactors) ∧
    (f.nextToFactor.2.toFactor.prod = f.toFactor.prod) ∧
    (∀ x ∈ f.nextToFactor.2.toFactor, x ∈ f.toFactor) ∧
    (f.nextToFactor.1 = none → f.nextToFactor.2.toFactor = []) ∧
    (∀ n, f.nextToFactor.1 = some n → n ≠ 1 ∧ ∃ t, f.nextToFactor.2.toFactor = n :: t) := by
  fun_induction Factorizer.nextToFactor f with
  | case1 => simp
  | case2 pf t ih => simp at ih ⊢; grind
  | case3 pf n t h => simp [h]

/-- Loop invariant of the factorizer. -/
def FInv (N : Nat) (f : Factorizer) : Prop :=
  Good f.primeFactors ∧ (∀ x ∈ f.toFactor, x ≠ 0) ∧
  f.toFactor.prod * (f.primeFactors.map fun pk => pk.1 ^ pk.2).prod = N

theorem FInv.foundPrime {N : Nat} {f f' : Factorizer} {p n : Nat} {t : List Nat} (h : FInv N f)
    (ht : f.toFactor = n :: t) (hp : p.Prime) (hd : p ∣ n) (he : f.foundPrimeFactor p = some f') : FInv N f' := by
  obtain ⟨h1, h2, h3⟩ := h
  unfold Factorizer.foundPrimeFactor at he
  rw [ht] at he
  simp only [Option.some.injEq] at he
  have hn : n ≠ 0 := h2 n (by simp [ht])
  subst he
  refine ⟨mulPrime_good _ _ h1 hp, ?_, ?_⟩
  · intro x hx
    simp only at hx
    split at hx
    · simp only [List.mem_cons] at hx
      rcases hx with rfl | hx
      · have := Nat.div_pos (Nat.le_of_dvd (by omega) hd) hp.pos; omega
      · exact h2 x (by simp [ht, hx])
    · exact h2 x (by simp [ht, hx])
  · simp only [mulPrime_prod]
    rw [← h3, ht]
    by_cases hpn : p = n
    · subst hpn; simp; ring
    · simp only [ne_eq, hpn, not_false_eq_true, if_true, List.prod_cons]
      conv_rhs => rw [← Nat.div_mul_cancel hd]
      ring

theorem FInv.foundFactor {N : Nat} {f f' : Factorizer} {d n : Nat} {t : List Nat} (h : FInv N f)
    (ht : f.toFactor = n :: t) (hd0 : d ≠ 0) (hd : d ∣ n) (he : f.foundFactor d = some f') : FInv N f' := by
  obtain ⟨h1, h2, h3⟩ := h
  unfold Factorizer.foundFactor at he
  rw [ht] at he
  simp only [Option.some.injEq] at he
  have hn : n ≠ 0 := h2 n (by simp [ht])
  subst he
  refine ⟨h1, ?_, ?_⟩
  · intro x hx
    simp only [List.mem_cons] at hx
    rcases hx with rfl | rfl | hx
    · exact hd0
    · have := Nat.div_pos (Nat.le_of_dvd (by omega) hd) (by omega : 0 < d); omega
    · exact h2 x (by simp [ht, hx])
  · simp only [List.prod_cons]
    rw [← h3, ht, List.prod_cons]
    conv_rhs => rw [← Nat.div_mul_cancel hd]
    ring

theorem factorMain_spec (isPrime : Nat → Option Bool)
    (hP : ∀ m, 1000000 ≤ m → isPrime m = some true → m.Prime)
    (N : Nat) (f : Factorizer) (r : Factored) (h : factorMain isPrime f = some r) :
    FInv N f → Good r ∧ (r.map fun pk => pk.1 ^ pk.2).prod = N := by
  revert h
  refine factorMain.partial_correctness isPrime
    (fun f r => FInv N f → Good r ∧ (r.map fun pk => pk.1 ^ pk.2).prod = N) ?_ f r
  intro fm ih f r h hinv
  obtain ⟨s1, s2, s3, s4, s5⟩ := nextToFactor_spec f
  have hinv' : FInv N f.nextToFactor.2 := by
    refine ⟨by rw [s1]; exact hinv.1, fun x hx => hinv.2.1 x (s3 x hx), ?_⟩
    rw [s1, s2]; exact hinv.2.2
  rcases hnf : f.nextToFactor with ⟨o, f'⟩
  rw [hnf] at h s4 s5 hinv'
  cases o with
  | none =>
    simp only [Option.some.injEq] at h
    subst h
    have := s4 rfl
    refine ⟨hinv'.1, ?_⟩
    have h3 := hinv'.2.2
    simp only at this
    rw [this] at h3
    simpa using h3
  | some n =>
    obtain ⟨hn1, t, ht⟩ := s5 n rfl
    simp only at ht hinv'
    have hn0 : n ≠ 0 := hinv'.2.1 n (by simp [ht])
    simp only at h
    split at h
    · simp only [Option.bind_eq_bind, Option.bind_eq_some_iff] at h
      obtain ⟨f'', hf'', h⟩ := h
      obtain ⟨hp, hd⟩ := smallestFactorLoop_spec n 2 (by omega) (by omega) (by intro m h1 h2; omega)
      exact ih _ _ h (hinv'.foundPrime ht hp hd hf'')
    · rename_i hlt
      simp only [Option.bind_eq_bind, Option.bind_eq_some_iff] at h
      obtain ⟨b, hb, h⟩ := h
      cases b with
      | true =>
        simp only [if_true] at h
        simp only [Option.bind_eq_some_iff] at h
        obtain ⟨f'', hf'', h⟩ := h
        exact ih _ _ h (hinv'.foundPrime ht (hP n (by omega) hb) (dvd_refl n) hf'')
      | false =>
        simp only [Bool.false_eq_true, if_false] at h
        simp only [Option.bind_eq_some_iff] at h
        obtain ⟨d, hd, f'', hf'', h⟩ := h
        obtain ⟨hd1, hd2, hd3⟩ := rhoOuter_spec _ _ _ hd
        exact ih _ _ h (hinv'.foundFactor ht (by omega) hd2 hf'')

theorem newWithTrialDivision_spec (n maxD : Nat) (hn : n ≠ 0) :
    FInv n (Factorizer.newWithTrialDivision n maxD) := by
  obtain ⟨a1, a2, a3, a4, a5⟩ := trialLoop_spec maxD 2 n [] (by simp [Good]) hn (by omega) (by intro m h1 h2; omega)
  refine ⟨a1, ?_, ?_⟩
  · intro x hx
    simp [Factorizer.newWithTrialDivision] at hx
    subst hx; exact a2
  · simp [Factorizer.newWithTrialDivision]
    rw [a3]; simp

theorem factor_spec (isPrime : Nat → Option Bool)
    (hP : ∀ m, 1000000 ≤ m → isPrime m = some true → m.Prime) (n : Nat) (hn : n ≠ 0) (r : Option Factored)
    (h : factor isPrime n = some r) :
    ∃ f, r = some f ∧ Good f ∧ (f.map fun pk => pk.1 ^ pk.2).prod = n := by
  unfold factor at h
  simp only [hn, if_false, Option.map_eq_some_iff] at h
  obtain ⟨f, hf, rfl⟩ := h
  exact ⟨f, rfl, factorMain_spec isPrime hP n _ f hf (newWithTrialDivision_spec n _ hn)⟩

/-- A good factorization agrees with Mathlib's `Nat.factorization`. -/
theorem good_factorization (f : Factored) (hf : Good f) (p : Nat) :
    ((f.map fun (pk : Nat × Nat) => pk.1 ^ pk.2).prod).factorization p
      = ((f.find? (fun pk => pk.1 == p)).map (·.2)).getD 0 := by
  induction f with
  | nil => simp
  | cons a t ih =>
    obtain ⟨q, k⟩ := a
    have ht : Good t := ⟨fun pk h => hf.1 pk (by simp [h]), by have := hf.2; simp at this; simpa using this.2⟩
    have hq := hf.1 (q, k) (by simp)
    have hprod : (t.map fun pk => pk.1 ^ pk.2).prod ≠ 0 := by
      rw [Ne, List.prod_eq_zero_iff]
      simp only [List.mem_map, not_exists, not_and]
      intro x hx hc
      exact absurd hc (pow_ne_zero _ (ht.1 x hx).1.ne_zero)
    simp only [List.map_cons, List.prod_cons]
    rw [Nat.factorization_mul (pow_ne_zero _ hq.1.ne_zero) hprod]
    simp only [Finsupp.coe_add, Pi.add_apply, ih ht]
    rw [hq.1.factorization_pow]
    by_cases hqp : q = p
    · subst hqp
      have hnone : t.find? (fun pk => pk.1 == q) = none := by
        rw [List.find?_eq_none]
        intro x hx hc
        have := hf.2
        simp only [List.map_cons, List.nodup_cons] at this
        simp only [beq_iff_eq] at hc
        exact this.1 (hc ▸ List.mem_map_of_mem hx)
      simp [hnone]
    · simp [hqp]

theorem good_coprime (p k : Nat) (t : Factored) (hf : Good ((p, k) :: t)) :
    Nat.Coprime (p ^ k) (t.map fun pk => pk.1 ^ pk.2).prod := by
  apply Nat.Coprime.pow_left
  rw [Nat.coprime_list_prod_right_iff]
  intro n hn
  rw [List.mem_map] at hn
  obtain ⟨x, hx, rfl⟩ := hn
  apply Nat.Coprime.pow_right
  rw [Nat.coprime_primes (hf.1 (p, k) (by simp)).1 (hf.1 x (by simp [hx])).1]
  rintro rfl
  have := hf.2
  simp only [List.map_cons, List.nodup_cons] at this
  exact this.1 (List.mem_map_of_mem hx)

theorem good_totient (f : Factored) (hf : Good f) :
    eulerTotient f = Nat.totient ((f.map fun pk => pk.1 ^ pk.2).prod) := by
  rw [eulerTotient_eq]
  induction f with
  | nil => simp
  | cons a t ih =>
    obtain ⟨q, k⟩ := a
    have ht : Good t := ⟨fun pk h => hf.1 pk (by simp [h]), by have := hf.2; simp at this; simpa using this.2⟩
    have hq := hf.1 (q, k) (by simp)
    simp only [List.map_cons, List.prod_cons]
    rw [Nat.totient_mul (good_coprime q k t hf), ih ht, Nat.totient_prime_pow hq.1 hq.2]
    ring

end Verif.Natural
