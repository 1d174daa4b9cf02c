import Verif.Proofs.AksBernstein
import Verif.Proofs.AksPow
import Verif.Props.Natural

/-!
# The AKS primality test returns right answers
-/

namespace Verif.Aks

open Verif.Natural Verif.Props.Natural

/-! ### the search for `s` -/

theorem aksShrink_le (lhs : ℕ → ℕ) (rhs : ℕ) (k : ℕ) : ∀ s t, rhs ≤ lhs s → aksShrink lhs rhs k s = some t → rhs ≤ lhs t := by
  induction k with
  | zero =>
    intro s t h e
    rw [aksShrink] at e
    split at e
    · simp at e
    split at e
    · rw [Option.some.injEq] at e; exact e ▸ h
    split at e
    · rw [Option.some.injEq] at e; exact e ▸ h
    · rw [Option.some.injEq] at e; subst e; omega
  | succ k ih =>
    intro s t h e
    rw [aksShrink] at e
    split at e
    · simp at e
    split at e
    · exact ih s t h e
    split at e
    · rw [Option.some.injEq] at e; exact e ▸ h
    · rename_i h1 h2
      exact ih _ t (Nat.le_of_not_lt h1) e

theorem aksGrow_le (lhs : ℕ → ℕ) (rhs k s t : ℕ) (e : aksGrow lhs rhs k s = some t) : rhs ≤ lhs t := by
  refine aksGrow.partial_correctness lhs rhs (motive := fun _ _ t => rhs ≤ lhs t) ?_ k s t e
  intro f ih k s t h
  simp only at h
  split at h
  · exact ih _ _ _ h
  split at h
  · rw [Option.some.injEq] at h; subst h; omega
  split at h
  · simp at h
  · exact aksShrink_le lhs rhs _ _ t (by omega) h

theorem aksS_le {dbg : Bool} {n r s : ℕ} (hr : 5 ≤ r) (hrp : r.Prime) (hn : 2 ≤ n) (e : aksS dbg n r = some s) :
    ∃ i j d d' M : ℕ, d + d' < r - 1 ∧ 1 ≤ M ∧ r - 1 ≤ 3 * M ^ 2 + 1 ∧
      n ^ M ≤ (2 * s).choose i * d.choose i * (2 * s - i).choose j * d'.choose j := by
  unfold aksS at e
  generalize hpar : aksParams r = par at e
  obtain ⟨phi, d, i, j⟩ := par
  simp only [aksParams, Prod.mk.injEq] at hpar
  obtain ⟨h1, h2, h3, h4⟩ := hpar
  obtain ⟨M, hM, hM1⟩ := C28_root_ceil (phi / 3) 2 (by omega)
  simp only [hM, Option.bind_eq_bind, Option.bind_some] at e
  rw [Option.bind_eq_some_iff] at e
  obtain ⟨s', e1, e2⟩ := e
  have hs : s' = s := by
    split at e2
    · simp at e2
    · simpa using e2
  subst hs
  have hle := aksGrow_le _ _ _ _ _ e1
  rw [Verif.Natural.pow_eq] at hle
  have hpos : 0 < n ^ M := by positivity
  unfold aksLhs at hle
  simp only at hle
  split at hle
  · omega
  rw [choose_eq, choose_eq, choose_eq, choose_eq] at hle
  have hm1 : phi / 3 ≤ M ^ 2 := hM1.1
  refine ⟨i, j, d, phi - 1 - d, M, by omega, ?_, ?_, hle⟩
  · rcases Nat.eq_zero_or_pos M with h0 | h0
    · subst h0
      simp only [ne_eq, OfNat.ofNat_ne_zero, not_false_eq_true, zero_pow] at hm1
      omega
    · exact h0
  · by_contra hc
    have h3 : r % 3 = 0 := by omega
    have := (Nat.prime_dvd_prime_iff_eq Nat.prime_three hrp).1 (Nat.dvd_of_mod_eq_zero h3)
    omega

/-! ### the greatest common divisors -/

/-- `a` is the right answer for `n ≥ 2` -/
def Right (n : ℕ) (a : PrimalityTestResult) : Prop := (a = .prime ∧ n.Prime) ∨ (a = .composite ∧ ¬ n.Prime)

theorem aksGcds_spec {n : ℕ} (hn : 2 ≤ n) (l : List ℕ) :
    (aksGcds n l = none → ∀ v ∈ l, Nat.Coprime n v) ∧ ∀ a, aksGcds n l = some a → Right n a := by
  induction l with
  | nil => simp [aksGcds]
  | cons v t ih =>
    rw [aksGcds]
    simp only [gcd_eq]
    split
    · rename_i h
      split
      · rename_i h'
        refine ⟨by simp, fun a e => ?_⟩
        rw [Option.some.injEq] at e
        subst e
        obtain ⟨h1, h2, -⟩ := C32_try_divisors n
        by_cases hp : n.Prime
        · exact Or.inl ⟨h1.2 hp, hp⟩
        · exact Or.inr ⟨h2.2 ⟨hn, hp⟩, hp⟩
      · rename_i h'
        refine ⟨by simp, fun a e => ?_⟩
        rw [Option.some.injEq] at e
        refine Or.inr ⟨e.symm, fun hp => ?_⟩
        rcases (Nat.dvd_prime hp).1 (Nat.gcd_dvd_left n v) with h1 | h1
        · exact h h1
        · exact h' h1
    · rename_i h
      rw [not_not] at h
      refine ⟨fun e w hw => ?_, ih.2⟩
      rcases List.mem_cons.1 hw with rfl | hw
      · exact h
      · exact ih.1 e w hw

theorem mem_aksProducts (l : List ℕ) : ∀ b ∈ l, ∀ c ∈ l, b * c - 1 ∈ aksProducts l := by
  induction l with
  | nil => simp
  | cons x t ih =>
    intro b hb c hc
    rw [aksProducts, List.mem_append]
    rcases List.mem_cons.1 hb with rfl | hb'
    · exact Or.inl (List.mem_map.2 ⟨c, hc, rfl⟩)
    · rcases List.mem_cons.1 hc with rfl | hc'
      · exact Or.inl (List.mem_map.2 ⟨b, hb, by rw [mul_comm]⟩)
      · exact Or.inr (ih b hb' c hc')

theorem mem_aksDifferences (l : List ℕ) (hl : l.Pairwise (· < ·)) : ∀ b ∈ l, ∀ c ∈ l, b < c → c - b ∈ aksDifferences l := by
  induction l with
  | nil => simp
  | cons x t ih =>
    rw [List.pairwise_cons] at hl
    intro b hb c hc hbc
    rw [aksDifferences, List.mem_append]
    rcases List.mem_cons.1 hb with rfl | hb'
    · rcases List.mem_cons.1 hc with rfl | hc'
      · omega
      · exact Or.inl (List.mem_map.2 ⟨c, hc', rfl⟩)
    · rcases List.mem_cons.1 hc with rfl | hc'
      · have := hl.1 b hb'; omega
      · exact Or.inr (ih hl.2 b hb' c hc' hbc)

/-! ### the tests -/

theorem fits {n r : ℕ} (hn : 2 ≤ n) (hr : 2 ≤ r) : Fits n r (aksSize n r) := by
  refine ⟨by omega, by omega, ?_⟩
  unfold aksSize
  rw [bitcount_eq]
  exact Nat.lt_size_self _

theorem mem_aksSet {s b : ℕ} : b ∈ aksSet s ↔ 2 ≤ b ∧ b < 2 + s := by
  simp [aksSet, List.mem_range'_1]

theorem aksIdentities_true {dbg : Bool} {n r cs : ℕ} (l : List ℕ) (h : aksIdentities dbg n r cs l = some true) :
    ∀ b ∈ l, aksIdentity dbg n r cs b = some true := by
  induction l with
  | nil => simp
  | cons b t ih =>
    rw [aksIdentities, Option.bind_eq_bind, Option.bind_eq_some_iff] at h
    obtain ⟨ok, h1, h2⟩ := h
    cases ok with
    | false => simp at h2
    | true =>
      intro c hc
      rcases List.mem_cons.1 hc with rfl | hc
      · exact h1
      · exact ih h2 c hc

theorem aksIdentities_prime (dbg : Bool) {n r cs : ℕ} (l : List ℕ) (h : ∀ b ∈ l, aksIdentity dbg n r cs b = some true) :
    aksIdentities dbg n r cs l = some true := by
  induction l with
  | nil => rfl
  | cons b t ih =>
    rw [aksIdentities, h b (by simp), Option.bind_eq_bind, Option.bind_some, if_pos rfl]
    exact ih fun c hc => h c (by simp [hc])

/-- what holds when the tests with greatest common divisors and powers return no answer -/
theorem aksTests_cases {dbg : Bool} {n r : ℕ} {a : PrimalityTestResult} (hn : 2 ≤ n) (h : aksTests dbg n r = some a) :
    Right n a ∨ ∃ s, aksS dbg n r = some s ∧ s + 1 < n ∧ (∀ b ∈ aksSet s, Nat.Coprime n b) ∧ (∀ b ∈ aksSet s, ∀ c ∈ aksSet s, Nat.Coprime n (b * c - 1)) ∧
      (∀ b ∈ aksSet s, ∀ c ∈ aksSet s, b < c → Nat.Coprime n (c - b)) ∧ (∀ b ∈ aksSet s, b ^ (n - 1) % n = 1) ∧
      ∃ ok, aksIdentities dbg n r (aksSize n r) (aksSet s) = some ok ∧ a = if ok then .prime else .composite := by
  unfold aksTests at h
  rw [Option.bind_eq_bind, Option.bind_eq_some_iff] at h
  obtain ⟨s, hs, h⟩ := h
  simp only at h
  obtain ⟨c1, c2⟩ := aksGcds_spec hn (aksSet s)
  split at h
  · rename_i x e
    rw [Option.some.injEq] at h
    subst h
    exact Or.inl (c2 _ e)
  rename_i e1
  have d1 := c1 e1
  obtain ⟨c1, c2⟩ := aksGcds_spec hn (aksProducts (aksSet s))
  split at h
  · rename_i x e
    rw [Option.some.injEq] at h
    subst h
    exact Or.inl (c2 _ e)
  rename_i e2
  have d2 := c1 e2
  obtain ⟨c1, c2⟩ := aksGcds_spec hn (aksDifferences (aksSet s))
  split at h
  · rename_i x e
    rw [Option.some.injEq] at h
    subst h
    exact Or.inl (c2 _ e)
  rename_i e3
  have d3 := c1 e3
  have hlt : s + 1 < n := by
    by_contra hc
    have := d1 n (mem_aksSet.2 ⟨hn, by omega⟩)
    rw [Nat.coprime_self] at this
    omega
  split at h
  · rename_i hf
    rw [Option.some.injEq] at h
    rw [List.any_eq_true] at hf
    obtain ⟨b, hb, hf⟩ := hf
    refine Or.inl (Or.inr ⟨h.symm, fun hp => ?_⟩)
    simp only [aksFermat, ne_eq, decide_not, Bool.not_eq_eq_eq_not, Bool.not_true, decide_eq_false_iff_not] at hf
    apply hf
    rw [← Nat.pow_mod, ← Nat.totient_prime hp]
    have := Nat.ModEq.pow_totient (d1 b hb).symm
    rwa [Nat.ModEq, Nat.mod_eq_of_lt (show 1 < n by omega)] at this
  rename_i hf
  split at h
  · simp at h
  rw [Option.bind_eq_bind, Option.bind_eq_some_iff] at h
  obtain ⟨ok, h1, h2⟩ := h
  refine Or.inr ⟨s, hs, hlt, d1, fun b hb c hc => d2 _ (mem_aksProducts _ b hb c hc),
    fun b hb c hc hbc => d3 _ (mem_aksDifferences _ (List.pairwise_lt_range' (step := 1)) b hb c hc hbc), ?_, ok, h1, ?_⟩
  · intro b hb
    by_contra hne
    apply hf
    rw [List.any_eq_true]
    refine ⟨b, hb, ?_⟩
    rw [aksFermat, decide_eq_true_eq, ← Nat.pow_mod]
    exact hne
  · cases ok <;> simp_all

/-- A composite answer is right. -/
theorem aksTests_composite {dbg : Bool} {n r : ℕ} {a : PrimalityTestResult} (hn : 2 ≤ n) (hr : 2 ≤ r) (hnr : n % r ≠ 0)
    (h : aksTests dbg n r = some a) : Right n a ∨ a = .prime := by
  rcases aksTests_cases hn h with h | ⟨s, -, hs, -, -, -, -, ok, h1, h2⟩
  · exact Or.inl h
  · cases ok with
    | true => exact Or.inr h2
    | false =>
      refine Or.inl (Or.inr ⟨h2, fun hp => ?_⟩)
      rw [aksIdentities_prime dbg _ fun b hb => aksIdentity_prime dbg (fits hn hr) hp hr (by have := (mem_aksSet.1 hb).2; omega) hnr] at h1
      simp at h1

/-- All answers are right. -/
theorem aksTests_right {dbg : Bool} {n r : ℕ} {a : PrimalityTestResult} (hn : 2 ≤ n) (hr : 5 ≤ r) (hrp : r.Prime)
    (hgen : ∀ a, a % r ≠ 0 → ∃ k, n ^ k % r = a % r) (hpow : ∀ a k, 2 ≤ k → a ^ k ≠ n) (h : aksTests dbg n r = some a) : Right n a := by
  have hnr : n % r ≠ 0 := by
    intro h0
    obtain ⟨k, hk⟩ := hgen 2 (by rw [Nat.mod_eq_of_lt (by omega)]; omega)
    rw [Nat.mod_eq_of_lt (show 2 < r by omega)] at hk
    rcases k with _ | k
    · rw [pow_zero, Nat.mod_eq_of_lt (by omega)] at hk
      omega
    · rw [pow_succ, Nat.mul_mod, h0, mul_zero, Nat.zero_mod] at hk
      omega
  rcases aksTests_cases hn h with h | ⟨s, hs, hlt, d1, d2, d3, d4, ok, h1, h2⟩
  · exact h
  cases ok with
  | false =>
    refine (aksTests_composite hn (by omega) hnr h).resolve_right ?_
    rw [h2]; simp
  | true =>
    obtain ⟨i, j, d, d', M, m1, m2, m3, m4⟩ := aksS_le hr hrp hn hs
    refine Or.inl ⟨h2, ?_⟩
    have hcard : (aksSet s).toFinset.card = s := by
      rw [aksSet, List.toFinset_card_of_nodup (List.nodup_range' (step := 1)), List.length_range']
    have ht : Tests n r (aksSet s).toFinset := by
      constructor
      · intro b hb; exact (mem_aksSet.1 (List.mem_toFinset.1 hb)).1
      · intro b hb; exact d1 b (List.mem_toFinset.1 hb)
      · intro b hb c hc; exact d2 b (List.mem_toFinset.1 hb) c (List.mem_toFinset.1 hc)
      · intro b hb c hc; exact d3 b (List.mem_toFinset.1 hb) c (List.mem_toFinset.1 hc)
      · intro b hb; exact d4 b (List.mem_toFinset.1 hb)
      · intro b hb K _ h0 η hη
        have hb := List.mem_toFinset.1 hb
        exact aksIdentity_true dbg (fits hn (by omega)) hn (by omega) (by have := (mem_aksSet.1 hb).2; omega) hnr (aksIdentities_true _ h1 b hb) K h0 η hη
    obtain ⟨p, hp, hpn⟩ := Nat.exists_prime_and_dvd (show n ≠ 1 by omega)
    obtain ⟨k, hk⟩ := prime_power hrp (by omega) hn hgen ht m1 (by rw [hcard]; exact m4) m2 m3 hp hpn
    have hk1 : k = 1 := by
      rcases k with _ | _ | k
      · rw [pow_zero] at hk; omega
      · rfl
      · exact absurd hk.symm (hpow p _ (by omega))
    rw [hk, hk1, pow_one]
    exact hp

/-! ### the search for `r` -/

theorem expand_fromPrime (r : ℕ) : expand (fromPrime r) = r := by
  simp [expand, fromPrime, Verif.Natural.pow_eq]

theorem isPrimitiveRoot_cases {isPrime : ℕ → Option Bool} {r n : ℕ} {a : IsPrimitiveRootResult} (h : isPrimitiveRoot isPrime (fromPrime r) n = some a) :
    a = .nonUnit ↔ ¬ Nat.Coprime n r := by
  unfold isPrimitiveRoot at h
  simp only [expand_fromPrime, gcd_eq] at h
  split at h
  · rename_i h1
    rw [Option.some.injEq] at h
    exact ⟨fun _ => h1, fun _ => h.symm⟩
  · rename_i h1
    rw [not_not] at h1
    refine ⟨fun ha => ?_, fun ha => absurd h1 ha⟩
    subst ha
    simp only [Option.bind_eq_bind, Option.bind_eq_some_iff] at h
    obtain ⟨x, -, y, -, h⟩ := h
    split at h <;> simp at h

theorem aksFindR_spec {isPrime : ℕ → Option Bool} {n : ℕ} (hn : 2 ≤ n) (r0 : ℕ) (g : PrimeGenerator) (a : AksR) (hg : PGInv g)
    (h : aksFindR isPrime n r0 g = some a) :
    (∃ x, a = .answer x ∧ Right n x) ∨
      ∃ r, a = .found r ∧ r.Prime ∧ r0 ≤ r ∧ Nat.Coprime n r ∧ isPrimitiveRoot isPrime (fromPrime r) n = some .yes := by
  refine aksFindR.partial_correctness isPrime n r0 (motive := fun g a => PGInv g → (∃ x, a = .answer x ∧ Right n x) ∨
      ∃ r, a = .found r ∧ r.Prime ∧ r0 ≤ r ∧ Nat.Coprime n r ∧ isPrimitiveRoot isPrime (fromPrime r) n = some .yes) ?_ g a h hg
  intro f ih g a h hg
  obtain ⟨p, g', n1, n2, n3, n4, n5, -⟩ := pg_next hg
  simp only [n1, Option.bind_eq_bind, Option.bind_some] at h
  split at h
  · exact ih _ _ h n2
  rename_i hr
  rw [Option.bind_eq_some_iff] at h
  obtain ⟨x, h1, h2⟩ := h
  have hc := isPrimitiveRoot_cases h1
  cases x with
  | nonUnit =>
    have hnc := hc.1 rfl
    have hd : p ∣ n := by
      by_contra hd
      exact hnc ((Nat.Prime.coprime_iff_not_dvd n4).2 hd).symm
    left
    simp only at h2
    split at h2
    · rename_i e
      rw [Option.some.injEq] at h2
      exact ⟨_, h2.symm, Or.inl ⟨rfl, e ▸ n4⟩⟩
    · rename_i e
      rw [Option.some.injEq] at h2
      refine ⟨_, h2.symm, Or.inr ⟨rfl, fun hp => ?_⟩⟩
      exact e ((Nat.prime_dvd_prime_iff_eq n4 hp).1 hd).symm
  | no => exact ih _ _ h2 n2
  | yes =>
    right
    simp only [Option.some.injEq] at h2
    refine ⟨p, h2.symm, n4, by omega, ?_, h1⟩
    by_contra hnc
    have := hc.2 hnc
    simp at this

theorem generates {isPrime : ℕ → Option Bool} (hP : PrimalitySound isPrime) {r n : ℕ} (hr : r.Prime) (h : isPrimitiveRoot isPrime (fromPrime r) n = some .yes) :
    ∀ a, a % r ≠ 0 → ∃ k, n ^ k % r = a % r := by
  have hf : IsFactorization (fromPrime r) r := by
    refine ⟨?_, by simp [fromPrime], by simp [fromPrime]⟩
    intro pk hpk
    simp only [fromPrime, List.mem_singleton] at hpk
    subst hpk
    exact ⟨hr, one_pos⟩
  obtain ⟨hc, hv⟩ := (C36_primitive_root isPrime hP _ r hf n _ h).2.1.1 rfl
  haveI : Fact r.Prime := ⟨hr⟩
  intro a ha
  have hca : a.Coprime r := ((Nat.Prime.coprime_iff_not_dvd hr).2 fun hd => ha (Nat.mod_eq_zero_of_dvd hd)).symm
  have := hv (ZMod.unitOfCoprime a hca)
  rw [← mem_powers_iff_mem_zpowers] at this
  obtain ⟨k, hk⟩ := this
  refine ⟨k, ?_⟩
  have h2 := congrArg Units.val hk
  simp only [Units.val_pow_eq_pow_val, ZMod.coe_unitOfCoprime] at h2
  apply (ZMod.natCast_eq_natCast_iff' _ _ r).1
  push_cast
  exact h2

theorem aksR0_le (n : ℕ) (hn : 2 ^ 20 ≤ n) : 4 ≤ aksR0 n := by
  unfold aksR0
  rw [bitcount_eq]
  have h : 20 < n.size := Nat.lt_size.2 hn
  have h2 : 20 * 20 ≤ (n.size - 1) * (n.size - 1) := Nat.mul_le_mul (by omega) (by omega)
  simp only
  split <;> omega

theorem aksR0_ge (n : ℕ) : 3 ≤ aksR0 n := by
  unfold aksR0
  simp only
  split <;> omega

/-! ### the whole test -/

theorem aks_cases {dbg : Bool} {isPrime : ℕ → Option Bool} {n : ℕ} {a : PrimalityTestResult} (h : aks dbg isPrime n = some a) :
    (n = 0 ∧ a = .zero) ∨ (n = 1 ∧ a = .one) ∨ (2 ≤ n ∧ (Right n a ∨ (∀ b k, 2 ≤ k → b ^ k ≠ n) ∧
      ∃ r, r.Prime ∧ aksR0 n ≤ r ∧ Nat.Coprime n r ∧ isPrimitiveRoot isPrime (fromPrime r) n = some .yes ∧ aksTests dbg n r = some a)) := by
  unfold aks at h
  rw [Option.bind_eq_bind, Option.bind_eq_some_iff] at h
  obtain ⟨p, h1, h2⟩ := h
  rcases C30_is_power_test n with ⟨e, e'⟩ | ⟨e, e'⟩ | ⟨b, k, e', hk, hbk, hn⟩ | ⟨e', hn, hpow⟩
  · rw [e', Option.some.injEq] at h1
    subst h1
    simp only [Option.some.injEq] at h2
    exact Or.inl ⟨e, h2.symm⟩
  · rw [e', Option.some.injEq] at h1
    subst h1
    simp only [Option.some.injEq] at h2
    exact Or.inr (Or.inl ⟨e, h2.symm⟩)
  · rw [e', Option.some.injEq] at h1
    subst h1
    simp only [Option.some.injEq] at h2
    refine Or.inr (Or.inr ⟨hn, Or.inl (Or.inr ⟨h2.symm, ?_⟩)⟩)
    rw [← hbk]
    exact Nat.Prime.not_prime_pow hk.two_le
  · rw [e', Option.some.injEq] at h1
    subst h1
    simp only [Option.bind_eq_bind, Option.bind_eq_some_iff] at h2
    obtain ⟨x, h3, h4⟩ := h2
    refine Or.inr (Or.inr ⟨hn, ?_⟩)
    rcases aksFindR_spec hn _ _ x pgInv_new h3 with ⟨y, rfl, hy⟩ | ⟨r, rfl, hr, hr0, hc, hy⟩
    · simp only [Option.some.injEq] at h4
      exact Or.inl (h4 ▸ hy)
    · exact Or.inr ⟨hpow, r, hr, hr0, hc, hy, h4⟩

end Verif.Aks
