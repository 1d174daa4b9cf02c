import Verif.Proofs.NumberField3
import Verif.Proofs.RealAlgAll
import Verif.Proofs.RealAlgRoots
import Verif.Proofs.Berlekamp

/-! The search for an integral basis. -/

namespace Verif.Anf
open Verif.Rings Polynomial

attribute [-instance] Rat.smulDivisionRing Rat.instDistribSMul

local notation "qp" => polyVal (id : ℚ → ℚ)

section
variable {f : List ℚ} {n : Nat}

theorem map_div_val (l : List ℚ) (p : ℚ) : qp (l.map fun c => c / p) = C p⁻¹ * qp l := by
  ext i
  rw [coeff_C_mul, coeff_polyVal (id : ℚ → ℚ) 0 rfl, coeff_polyVal (id : ℚ → ℚ) 0 rfl]
  simp only [id, List.getD_eq_getElem?_getD, List.getElem?_map]
  cases l[i]? <;> simp [div_eq_inv_mul]

theorem cmul_deg (c : ℚ) (p : ℚ[X]) : (C c * p).degree ≤ p.degree := by
  by_cases h : c = 0
  · simp [h]
  · rw [degree_C_mul h]

theorem sum_val (l : List (List ℚ)) : qp (ratOps.poly.sum l) = (l.map qp).sum := ratOps_models.toRing.toSemi.poly.sum l

/-- `alpha` for given coefficients -/
theorem alphaOf_spec {g : List (List ℚ)} (hl : g.length = n) (hd : ∀ x ∈ g, (qp x).degree < n) (p : Nat) {cs : List Nat}
    (hc : cs.length = n) :
    ∃ a, alphaOf n p g cs = some a ∧ el f a = (p : ℚ)⁻¹ • ∑ i : Fin n, (cs.getD i 0 : ℚ) • els f g n i ∧ (qp a).degree < n := by
  have hget : ∀ i : Fin n, alphaTerm g cs i = some (ratOps.polyMul (polyConst (cs.getD i 0 : ℚ)) (g.getD i [])) := by
    intro i
    unfold alphaTerm
    rw [List.getElem?_eq_getElem (by omega), List.getElem?_eq_getElem (by omega), List.getD_eq_getElem _ _ (by omega),
      List.getD_eq_getElem _ _ (by omega)]
    rfl
  have hm := mapM_range_ofFn hget
  refine ⟨_, by unfold alphaOf; rw [hm]; rfl, ?_, ?_⟩
  · unfold el
    rw [map_div_val, sum_val, map_mul, List.map_ofFn, List.sum_ofFn, map_sum, Algebra.smul_def]
    congr 1
    refine Finset.sum_congr rfl fun i _ => ?_
    exact el_smul _ _
  · rw [map_div_val, sum_val, List.map_ofFn, List.sum_ofFn]
    refine lt_of_le_of_lt (cmul_deg _ _) ?_
    refine lt_of_le_of_lt (degree_sum_le _ _) ?_
    refine (Finset.sup_lt_iff (WithBot.bot_lt_coe n)).2 fun i _ => ?_
    simp only [Function.comp]
    rw [ratOps_models.toRing.toSemi.polyMul]
    have : qp (polyConst (cs.getD i 0 : ℚ)) = C (cs.getD i 0 : ℚ) := by simp [polyConst, polyVal]
    rw [this]
    refine lt_of_le_of_lt (cmul_deg _ _) (hd _ ?_)
    rw [List.getD_eq_getElem _ _ (by omega)]
    exact List.getElem_mem _

end

section
variable {f : List ℚ} [hirr : Fact (Irreducible (qp f))] {n : Nat}

/-- the minimal polynomial of every element is computed without a panic -/
def MinPolyTotal (f : List ℚ) : Prop := ∀ a, ∃ m, ratOps.pqMinPoly f a = some m

/-- an element found by the search: `1/p (x₁a₁ + … + xₙaₙ)`, integral and not zero -/
def Found (f : List ℚ) (n : Nat) (g : List (List ℚ)) (p : Nat) (a : List ℚ) : Prop :=
  (qp a).degree < n ∧ IsIntegral ℤ (el f a) ∧ el f a ≠ 0 ∧ ∃ x : Fin n → ℕ, (∀ i, x i < p) ∧ el f a = (p : ℚ)⁻¹ • ∑ i, (x i : ℚ) • els f g n i

/-- the search found nothing -/
def NotFound (f : List ℚ) (n : Nat) (g : List (List ℚ)) (p : Nat) : Prop :=
  ∀ x : Fin n → ℕ, (∀ i, x i < p) → (p : ℚ)⁻¹ • ∑ i, (x i : ℚ) • els f g n i ≠ 0 →
    ¬ IsIntegral ℤ ((p : ℚ)⁻¹ • ∑ i, (x i : ℚ) • els f g n i)

theorem searchCoeffs_spec {g : List (List ℚ)} (hl : g.length = n) (hd : ∀ x ∈ g, (qp x).degree < n) (p : Nat) (L : List (List Nat))
    (hL : ∀ cs ∈ L, cs.length = n ∧ ∀ c ∈ cs, c < p) :
    (∀ a, searchCoeffs f n p g L = some (some a) → Found f n g p a) ∧
    (searchCoeffs f n p g L = some none → ∀ cs ∈ L, (p : ℚ)⁻¹ • ∑ i : Fin n, (cs.getD i 0 : ℚ) • els f g n i ≠ 0 →
      ¬ IsIntegral ℤ ((p : ℚ)⁻¹ • ∑ i : Fin n, (cs.getD i 0 : ℚ) • els f g n i)) ∧
    (MinPolyTotal f → ∃ r, searchCoeffs f n p g L = some r) := by
  induction L with
  | nil => exact ⟨by intro a h; simp [searchCoeffs] at h, by simp, fun _ => ⟨_, rfl⟩⟩
  | cons cs L ih =>
    obtain ⟨ih1, ih2, ih3⟩ := ih fun c hc => hL c (List.mem_cons_of_mem _ hc)
    obtain ⟨hcs, hlt⟩ := hL cs List.mem_cons_self
    obtain ⟨a, a1, a2, a3⟩ := alphaOf_spec (f := f) hl hd p hcs
    obtain ⟨z, z1, z2⟩ := pqIsZero_ok (irr_ne f) a
    have e : searchCoeffs f n p g (cs :: L) = if z then searchCoeffs f n p g L else
        (isAlgebraicInteger f a).bind fun ai => if ai then some (some a) else searchCoeffs f n p g L := by
      rw [searchCoeffs]
      simp only [a1, z1, Option.bind_eq_bind, Option.bind_some]
    rw [e]
    cases z with
    | true =>
      rw [if_pos rfl]
      have h0 := z2.1 rfl
      refine ⟨ih1, ?_, ih3⟩
      intro h c hc
      rcases List.mem_cons.1 hc with rfl | hc
      · intro hne
        exact absurd (a2.symm.trans h0) hne
      · exact ih2 h c hc
    | false =>
      rw [if_neg (by simp)]
      have h0 : el f a ≠ 0 := fun h => by simpa using z2.2 h
      refine ⟨?_, ?_, ?_⟩
      · intro b hb
        cases eb : isAlgebraicInteger f a with
        | none => rw [eb] at hb; simp at hb
        | some ai =>
          rw [eb] at hb
          simp only [Option.bind_some] at hb
          have hs := isAlgebraicInteger_sound a ai eb
          cases ai with
          | true =>
            simp at hb
            subst hb
            refine ⟨a3, hs.1 rfl, h0, fun i => cs.getD i 0, ?_, a2⟩
            intro i
            change cs.getD i 0 < p
            rw [List.getD_eq_getElem _ _ (by omega)]
            exact hlt _ (List.getElem_mem _)
          | false =>
            rw [if_neg (by simp)] at hb
            exact ih1 b hb
      · intro h
        cases eb : isAlgebraicInteger f a with
        | none => rw [eb] at h; simp at h
        | some ai =>
          rw [eb] at h
          simp only [Option.bind_some] at h
          have hs := isAlgebraicInteger_sound a ai eb
          cases ai with
          | true => simp at h
          | false =>
            rw [if_neg (by simp)] at h
            intro c hc
            rcases List.mem_cons.1 hc with rfl | hc
            · intro _ hi
              rw [← a2] at hi
              simpa using hs.2 hi
            · exact ih2 h c hc
      · intro ht
        obtain ⟨ai, eai⟩ := isAlgebraicInteger_total a (ht a)
        rw [eai]
        simp only [Option.bind_some]
        split
        · exact ⟨_, rfl⟩
        · exact ih3 ht

theorem candidates_mem (n p : Nat) (cs : List Nat) :
    cs ∈ Factored.multiCartesianProduct (List.replicate n (List.range p)) ↔ cs.length = n ∧ ∀ c ∈ cs, c < p := by
  rw [Verif.Rings.mem_multiCartesianProduct]
  induction n generalizing cs with
  | zero =>
    rw [List.replicate_zero, List.forall₂_nil_right_iff]
    constructor
    · rintro rfl; simp
    · rintro ⟨h, -⟩; exact List.length_eq_zero_iff.1 h
  | succ n ih =>
    rw [List.replicate_succ]
    cases cs with
    | nil => simp
    | cons c cs =>
      rw [List.forall₂_cons, ih, List.mem_range]
      simp only [List.length_cons, List.mem_cons, forall_eq_or_imp]
      constructor
      · rintro ⟨h1, h2, h3⟩; exact ⟨by omega, h1, h3⟩
      · rintro ⟨h1, h2, h3⟩; exact ⟨h2, by omega, h3⟩

theorem searchPrimes_spec {g : List (List ℚ)} (hl : g.length = n) (hd : ∀ x ∈ g, (qp x).degree < n) (L : List (Int × Nat)) :
    (∀ a, searchPrimes f n g L = some (some a) → ∃ p, Found f n g p a) ∧
    (searchPrimes f n g L = some none → ∀ pk ∈ L, 2 ≤ pk.2 → NotFound f n g pk.1.natAbs) ∧
    (MinPolyTotal f → (∀ pk ∈ L, 0 ≤ pk.1 ∧ pk.1.natAbs < machineRange) → ∃ r, searchPrimes f n g L = some r) := by
  induction L with
  | nil => exact ⟨by intro a h; simp [searchPrimes] at h, by simp, fun _ _ => ⟨_, rfl⟩⟩
  | cons pk L ih =>
    obtain ⟨p, k⟩ := pk
    obtain ⟨ih1, ih2, ih3⟩ := ih
    obtain ⟨s1, s2, s3⟩ := searchCoeffs_spec (f := f) hl hd p.natAbs
      (Factored.multiCartesianProduct (List.replicate n (List.range p.natAbs))) (fun cs hcs => (candidates_mem n _ cs).1 hcs)
    by_cases hp : 0 ≤ p ∧ p.natAbs < machineRange
    · have e : searchPrimes f n g ((p, k) :: L) = if 2 ≤ k then
          (searchCoeffs f n p.natAbs g (Factored.multiCartesianProduct (List.replicate n (List.range p.natAbs)))).bind fun r =>
            match r with
            | some a => some (some a)
            | none => searchPrimes f n g L
          else searchPrimes f n g L := by
        rw [searchPrimes]
        simp only [hp.1, natToUsize, hp.2, decide_true, assertThat, if_true, Option.bind_eq_bind, Option.bind_some]
        rfl
      rw [e]
      by_cases hk : 2 ≤ k
      · rw [if_pos hk]
        refine ⟨?_, ?_, ?_⟩
        · intro a h
          obtain ⟨r, r1, r2⟩ := Option.bind_eq_some_iff.1 h
          cases r with
          | some b =>
            simp only [Option.some_inj] at r2
            subst r2
            exact ⟨_, s1 _ r1⟩
          | none => exact ih1 a r2
        · intro h
          obtain ⟨r, r1, r2⟩ := Option.bind_eq_some_iff.1 h
          cases r with
          | some b => simp at r2
          | none =>
            intro pk hpk
            rcases List.mem_cons.1 hpk with rfl | hpk
            · intro _ x hx
              have := s2 r1 (List.ofFn x) ((candidates_mem n _ _).2 ⟨by simp, by
                intro c hc
                obtain ⟨i, rfl⟩ := List.mem_ofFn.1 hc
                exact hx i⟩)
              have e : ∀ i : Fin n, (List.ofFn x).getD i 0 = x i := by
                intro i
                rw [List.getD_eq_getElem _ _ (by simp), List.getElem_ofFn]
              simp only [e] at this
              exact this
            · exact ih2 r2 pk hpk
        · intro ht hL
          obtain ⟨r, hr⟩ := s3 ht
          rw [hr, Option.bind_some]
          cases r with
          | some b => exact ⟨_, rfl⟩
          | none => exact ih3 ht fun pk hpk => hL pk (List.mem_cons_of_mem _ hpk)
      · rw [if_neg hk]
        refine ⟨ih1, ?_, fun ht hL => ih3 ht fun pk hpk => hL pk (List.mem_cons_of_mem _ hpk)⟩
        intro h pk hpk
        rcases List.mem_cons.1 hpk with rfl | hpk
        · intro h2; exact absurd h2 hk
        · exact ih2 h pk hpk
    · have e : searchPrimes f n g ((p, k) :: L) = none := by
        rw [searchPrimes]
        by_cases h0 : 0 ≤ p
        · have : ¬ p.natAbs < machineRange := fun h => hp ⟨h0, h⟩
          simp only [h0, natToUsize, this, decide_true, assertThat, if_true, if_false, Option.bind_eq_bind, Option.bind_some, Option.bind_none]
        · simp [h0, assertThat]
      rw [e]
      exact ⟨by simp, by simp, fun _ h => absurd (h _ List.mem_cons_self) hp⟩

/-- a right answer of `factor` for `d` -/
def FacFacts (d : ℤ) (r : Option (Factored Int)) : Prop :=
  ∃ F, r = some F ∧ (∀ pk ∈ F.factors, ∃ p : ℕ, p.Prime ∧ (p : ℤ) ∣ d ∧ pk.1 = p) ∧
    ∀ p e : ℕ, p.Prime → 0 < e → (p : ℤ) ^ e ∣ d → ∃ k, e ≤ k ∧ ((p : ℤ), k) ∈ F.factors

theorem facFacts_of {d : ℤ} (hd : d ≠ 0) {F : Natural.Factored} (hF : Props.Natural.IsFactorization F d.natAbs) (u : ℤ) :
    FacFacts d (some ⟨u, F.map fun pk => ((pk.1 : Int), pk.2)⟩) := by
  refine ⟨_, rfl, ?_, ?_⟩
  · intro pk hpk
    obtain ⟨q, hq, rfl⟩ := List.mem_map.1 hpk
    refine ⟨q.1, (hF.1 q hq).1, ?_, rfl⟩
    rw [Int.natCast_dvd]
    have h1 := List.dvd_prod (List.mem_map.2 ⟨q, hq, rfl⟩ : q.1 ^ q.2 ∈ F.map fun pk => pk.1 ^ pk.2)
    rw [hF.2.2] at h1
    exact (dvd_pow_self _ (hF.1 q hq).2.ne').trans h1
  · intro p e hp he hpd
    have h1 : p ^ e ∣ d.natAbs := by
      rw [← Int.natCast_dvd]
      push_cast
      exact hpd
    have h2 := (hp.pow_dvd_iff_le_factorization (by omega)).1 h1
    rw [Props.Natural.C34_exponents F _ hF p] at h2
    cases ef : F.find? (fun pk => pk.1 == p) with
    | none => rw [ef] at h2; simp at h2; omega
    | some q =>
      rw [ef] at h2
      have h3 := List.find?_some ef
      simp only [beq_iff_eq] at h3
      refine ⟨q.2, by simpa using h2, List.mem_map.2 ⟨q, List.mem_of_find?_eq_some ef, ?_⟩⟩
      rw [h3]

/-- the factors of an integer are its prime factors -/
theorem intFactor_facts (isPrime : Nat → Option Bool) (hP : Props.Natural.PrimalitySound isPrime) {d : Int} (hd : d ≠ 0)
    {r : Option (Factored Int)} (e : intFactor isPrime d = some r) : FacFacts d r := by
  rw [intFactor, if_neg hd, Option.bind_eq_some_iff] at e
  obtain ⟨s, hs, hr⟩ := e
  obtain ⟨F, rfl, hF⟩ := (Props.Natural.C34_factor isPrime hP d.natAbs).2 s (by omega) hs
  simp only [Option.map_some, Option.some.injEq] at hr
  subst hr
  exact facFacts_of hd hF _

/-- small numbers are factored whatever the AKS test does -/
theorem intFactor_small (aks : Nat → Option Natural.PrimalityTestResult) {d : Int} (hd : d ≠ 0) (h : d.natAbs < 10001 * 10001) :
    ∃ r, intFactor (Natural.isPrimeWith aks) d = some r ∧ FacFacts d r := by
  obtain ⟨F, F1, F2⟩ := Props.Natural.C34_factor_total_small aks d.natAbs (by omega) h
  exact ⟨_, by rw [intFactor, if_neg hd, F1]; rfl, facFacts_of hd F2 _⟩

/-- what holds of every guess -/
structure Inv (f : List ℚ) (n : Nat) (g : List (List ℚ)) : Prop where
  len : g.length = n
  deg : ∀ x ∈ g, (qp x).degree < n
  int : ∀ i, IsIntegral ℤ (els f g n i)
  disc : Algebra.discr ℚ (els f g n) ≠ 0

theorem ratNum_int (d : ℤ) : ratNumerator (d : ℚ) = d := by
  rw [Verif.RealRoots.ratNumerator_eq]
  simp

/-- one pass of the loop -/
theorem searchStep_eq (isPrime : Nat → Option Bool) (hn : (qp f).natDegree = n) {g : List (List ℚ)} (hg : Inv f n g) {d : ℤ}
    (hd : (d : ℚ) = Algebra.discr ℚ (els f g n)) :
    d ≠ 0 ∧ searchStep isPrime f n g = (intFactor isPrime d).bind fun r => r.bind fun F => searchPrimes f n g (sortByPrime F.factors) := by
  have h0 : d ≠ 0 := by
    rintro rfl
    exact hg.disc (by rw [← hd]; simp)
  have e1 := discriminant_spec (irr_ne f) (irr_pos f) g (by rw [hg.len, hn])
  subst hn
  refine ⟨h0, ?_⟩
  unfold searchStep
  rw [e1, ← hd]
  have h1 : (g.all fun x => decide (ratOps.polyNumCoeffs x ≤ (qp f).natDegree)) = true := by
    rw [List.all_eq_true]
    intro x hx
    exact decide_eq_true (numCoeffs_le.2 (hg.deg x hx))
  have h2 : isInt (d : ℚ) = true := (isInt_iff _).2 ⟨d, rfl⟩
  simp only [h1, h2, assertThat, if_true, Option.bind_eq_bind, Option.bind_some, ratNum_int]
  rw [if_pos (by simpa using h0)]
  rfl

/-- nothing found: the guess is an integral basis -/
theorem basis_of_notFound (hn : (qp f).natDegree = n) {g : List (List ℚ)} (hg : Inv f n g) {d : ℤ}
    (hd : (d : ℚ) = Algebra.discr ℚ (els f g n)) (h : ∀ p : ℕ, p.Prime → (p : ℤ) ^ 2 ∣ d → NotFound f n g p) : IsIntegralBasis f g := by
  have hli := li_of_discr hg.disc
  obtain rfl := hg.len
  refine ⟨hn.symm, ?_, ?_⟩
  · intro x
    constructor
    · intro hx
      by_contra hc
      obtain ⟨p, hp, y, hy, h0, hi⟩ := exists_prime_of_not_combo hli (finrank_eq.trans hn) hg.int hx hc
      have hdvd := sq_dvd_discr hg.int hp hy h0 hi hd
      refine h p hp hdvd y hy ?_ hi
      intro hz
      obtain ⟨i, hi⟩ := h0
      have hp0 : (p : ℚ)⁻¹ ≠ 0 := inv_ne_zero (by exact_mod_cast hp.ne_zero)
      rw [smul_eq_zero] at hz
      rcases hz with hz | hz
      · exact hp0 hz
      · have := Fintype.linearIndependent_iff.1 hli _ hz i
        exact hi (by exact_mod_cast this)
    · intro hx
      exact Combo.integral hg.int hx
  · intro c e hce
    have h1 : ∑ i, ((c i : ℚ) - e i) • els f g g.length i = 0 := by
      simp only [sub_smul, Finset.sum_sub_distrib]
      rw [hce, sub_self]
    funext i
    have := Fintype.linearIndependent_iff.1 hli _ h1 i
    have h2 : (c i : ℚ) = e i := by linarith
    exact_mod_cast h2

/-- something found: a larger lattice -/
theorem grow (hn : (qp f).natDegree = n) {g : List (List ℚ)} (hg : Inv f n g) {p : ℕ} {a : List ℚ} (ha : Found f n g p a) :
    ∃ new, reduceGuess f n (g ++ [a]) = some new ∧ Inv f n new ∧
      ∀ d d' : ℤ, (d : ℚ) = Algebra.discr ℚ (els f g n) → (d' : ℚ) = Algebra.discr ℚ (els f new n) → d' ∣ d ∧ d'.natAbs < d.natAbs := by
  obtain ⟨a1, a2, a3, x, x1, x2⟩ := ha
  have hlen : (g ++ [a]).length = n + 1 := by simp [hg.len]
  have hold : ∀ i : Fin n, els f (g ++ [a]) (n + 1) i.castSucc = els f g n i := by
    intro i
    unfold els
    rw [List.getD_append _ _ _ _ (by rw [hg.len]; simp)]
    rfl
  have hlast : els f (g ++ [a]) (n + 1) (Fin.last n) = el f a := by
    unfold els
    rw [List.getD_append_right _ _ _ _ (by rw [hg.len]; simp)]
    simp [hg.len]
  obtain ⟨new, n1, n2⟩ := reduceGuess_spec hn hlen (by
    intro y hy
    rcases List.mem_append.1 hy with hy | hy
    · exact hg.deg y hy
    · rw [List.mem_singleton.1 hy]; exact a1) ⟨Fin.last n, by rw [hlast]; exact a3⟩
  have hint : ∀ i, IsIntegral ℤ (els f (g ++ [a]) (n + 1) i) := by
    intro i
    refine Fin.lastCases ?_ ?_ i
    · rw [hlast]; exact a2
    · intro i; rw [hold]; exact hg.int i
  obtain ⟨M, M1, M2⟩ := discr_larger (a := els f g n) (b := els f new n) (fun i => by rw [← hold]; exact n2.sup _)
  have hnint : ∀ i, IsIntegral ℤ (els f new n i) := fun i => (n2.sub i).integral hint
  refine ⟨new, n1, ⟨n2.len, n2.deg, hnint, ?_⟩, ?_⟩
  · intro h0
    exact hg.disc (by rw [M1, h0, mul_zero])
  · intro d d' hd hd'
    have h1 : d = M.det ^ 2 * d' := by
      rw [← hd, ← hd'] at M1
      exact_mod_cast M1
    refine ⟨⟨_, h1.trans (mul_comm _ _)⟩, ?_⟩
    have hd0 : d ≠ 0 := by
      rintro rfl
      exact hg.disc (by rw [← hd]; simp)
    have hM0 : M.det ≠ 0 := by
      rintro h
      rw [h] at h1
      simp at h1
      exact hd0 h1
    have hd'0 : d' ≠ 0 := by
      rintro rfl
      simp at h1
      exact hd0 h1
    have hnu : ¬ IsUnit M.det := by
      intro hu
      have h2 : Combo (els f g n) (el f a) := by
        rw [← hlast]
        exact Combo.trans (M2 hu) (n2.sup _)
      have hp : 0 < p := by
        rcases Nat.eq_zero_or_pos n with h | h
        · exfalso
          have := irr_pos f
          omega
        · exact lt_of_le_of_lt (Nat.zero_le _) (x1 ⟨0, h⟩)
      rw [x2] at h2 a3
      exact not_combo_of_ne_zero (li_of_discr hg.disc) hp x1 a3 h2
    rw [h1, Int.natAbs_mul, Int.natAbs_pow]
    have h3 : 1 < M.det.natAbs := by
      have h4 : M.det.natAbs ≠ 1 := fun h => hnu (Int.isUnit_iff_natAbs_eq.2 h)
      have h5 : M.det.natAbs ≠ 0 := fun h => hM0 (Int.natAbs_eq_zero.1 h)
      omega
    have h6 : 0 < d'.natAbs := Int.natAbs_pos.2 hd'0
    have h7 : 1 < M.det.natAbs ^ 2 := Nat.one_lt_pow (by norm_num) h3
    exact lt_mul_of_one_lt_left h6 h7

theorem searchStep_spec (isPrime : Nat → Option Bool) (hn : (qp f).natDegree = n) {g : List (List ℚ)} (hg : Inv f n g)
    (hP : ∀ (d : ℤ) r, d ≠ 0 → (d : ℚ) = Algebra.discr ℚ (els f g n) → intFactor isPrime d = some r → FacFacts d r) :
    (∀ a, searchStep isPrime f n g = some (some a) → ∃ p, Found f n g p a) ∧
    (searchStep isPrime f n g = some none → IsIntegralBasis f g) := by
  obtain ⟨d, hd⟩ := discr_int hg.int
  obtain ⟨h0, e⟩ := searchStep_eq isPrime hn hg hd
  rw [e]
  refine ⟨?_, ?_⟩
  · intro a h
    obtain ⟨r, r1, r2⟩ := Option.bind_eq_some_iff.1 h
    obtain ⟨F, rfl, r3⟩ := Option.bind_eq_some_iff.1 r2
    exact (searchPrimes_spec hg.len hg.deg _).1 a r3
  · intro h
    obtain ⟨r, r1, r2⟩ := Option.bind_eq_some_iff.1 h
    obtain ⟨F, rfl, r3⟩ := Option.bind_eq_some_iff.1 r2
    obtain ⟨F', F1, F2, F3⟩ := hP d _ h0 hd r1
    cases F1
    refine basis_of_notFound hn hg hd fun p hp hpd => ?_
    obtain ⟨k, k1, k2⟩ := F3 p 2 hp (by norm_num) hpd
    exact (searchPrimes_spec hg.len hg.deg _).2.1 r3 (p, k) (List.mem_mergeSort.2 k2) k1

theorem searchLoop_sound (isPrime : Nat → Option Bool) (hP : Props.Natural.PrimalitySound isPrime) (hn : (qp f).natDegree = n)
    (g l : List (List ℚ)) (hg : Inv f n g) (e : searchLoop isPrime f n g = some l) : IsIntegralBasis f l := by
  have key := searchLoop.partial_correctness isPrime f n (motive := fun g l => Inv f n g → IsIntegralBasis f l) (by
    intro sl ih g l hl hg
    rw [Option.bind_eq_bind, Option.bind_eq_some_iff] at hl
    obtain ⟨found, e1, e2⟩ := hl
    obtain ⟨s1, s2⟩ := searchStep_spec isPrime hn hg fun d r h0 _ e => intFactor_facts isPrime hP h0 e
    cases found with
    | none =>
      simp only [Option.some_inj] at e2
      subst e2
      exact s2 e1
    | some a =>
      obtain ⟨p, hp⟩ := s1 a e1
      obtain ⟨new, n1, n2, -⟩ := grow hn hg hp
      simp only [n1, Option.bind_eq_bind, Option.bind_some] at e2
      exact ih _ _ e2 n2)
  exact key g l e hg

/-- the loop ends -/
theorem searchLoop_total (isPrime : Nat → Option Bool) (hn : (qp f).natDegree = n)
    (ht : MinPolyTotal f) (D : ℤ) (hF : ∀ d : ℤ, d ≠ 0 → d ∣ D → ∃ r, intFactor isPrime d = some r ∧ FacFacts d r)
    (hM : ∀ p : ℕ, p.Prime → (p : ℤ) ∣ D → p < machineRange) (g : List (List ℚ)) (hg : Inv f n g)
    (d : ℤ) (hd : (d : ℚ) = Algebra.discr ℚ (els f g n)) (hdD : d ∣ D) :
    ∃ l, searchLoop isPrime f n g = some l ∧ IsIntegralBasis f l := by
  induction hm : d.natAbs using Nat.strong_induction_on generalizing g d with
  | _ m ih =>
    obtain ⟨h0, e⟩ := searchStep_eq isPrime hn hg hd
    obtain ⟨r, r1, F, rfl, F2, F3⟩ := hF d h0 hdD
    obtain ⟨res, res1⟩ := (searchPrimes_spec hg.len hg.deg (sortByPrime F.factors)).2.2 ht (by
      intro pk hpk
      obtain ⟨p, p1, p2, p3⟩ := F2 pk (List.mem_mergeSort.1 hpk)
      rw [p3]
      exact ⟨by simp, by simpa using hM p p1 (p2.trans hdD)⟩)
    have e2 : searchStep isPrime f n g = some res := by
      rw [e, r1]
      exact res1
    have hstep := searchStep_spec isPrime hn hg (by
      intro d' r' h0' hd' e'
      have : d' = d := by
        have := hd'.trans hd.symm
        exact_mod_cast this
      subst this
      rw [r1] at e'
      cases e'
      exact ⟨F, rfl, F2, F3⟩)
    rw [searchLoop.eq_def, e2]
    cases res with
    | none => exact ⟨g, rfl, hstep.2 e2⟩
    | some a =>
      obtain ⟨p, hp⟩ := hstep.1 a e2
      obtain ⟨new, n1, n2, n3⟩ := grow hn hg hp
      obtain ⟨d', hd'⟩ := discr_int n2.int
      obtain ⟨k1, k2⟩ := n3 d d' hd hd'
      obtain ⟨l, hl, hl2⟩ := ih d'.natAbs (by omega) new n2 d' hd' (k1.trans hdD) rfl
      refine ⟨l, ?_, hl2⟩
      simp only [n1, Option.bind_eq_bind, Option.bind_some]
      exact hl

/-! ## The first guess -/

/-- the multiples of the powers of the generator -/
structure Start (f : List ℚ) (n : Nat) (g : List (List ℚ)) (m : Fin n → ℤ) : Prop where
  len : g.length = n
  nz : ∀ i, m i ≠ 0
  eq : ∀ i, els f g n i = (m i : ℚ) • el f (ratOps.polyVarPow i)
  deg : ∀ x ∈ g, (qp x).degree < n
  int : ∀ i, IsIntegral ℤ (els f g n i)
  unit : ∀ i : Fin n, IsIntegral ℤ (el f (ratOps.polyVarPow i)) → m i ∣ 1

theorem mapM_some_get {β γ : Type} {F : β → Option γ} {l : List β} {l' : List γ} (e : l.mapM F = some l') :
    l'.length = l.length ∧ ∀ i (h : i < l.length) (h' : i < l'.length), F l[i] = some l'[i] := by
  induction l generalizing l' with
  | nil => rw [List.mapM_nil] at e; cases e; simp
  | cons x l ih =>
    rw [List.mapM_cons] at e
    simp only [Option.bind_eq_bind, Option.bind_eq_some_iff] at e
    obtain ⟨y, y1, t, t1, t2⟩ := e
    cases t2
    obtain ⟨h1, h2⟩ := ih t1
    refine ⟨by simp [h1], ?_⟩
    intro i h h'
    cases i with
    | zero => exact y1
    | succ i => exact h2 i (by simpa using h) (by simpa using h')

theorem polyVarPow_val (i : Nat) : qp (ratOps.polyVarPow i) = X ^ i := ratOps_models.toRing.toSemi.polyVarPow i

theorem start_spec {g : List (List ℚ)} (e : (List.range n).mapM (fun i => integralMultiple f (ratOps.polyVarPow i)) = some g) :
    ∃ m, Start f n g m := by
  obtain ⟨hlen, hget⟩ := mapM_some_get e
  have hl : g.length = n := by simpa using hlen
  have hex : ∀ i : Fin n, ∃ m : ℤ, m ≠ 0 ∧ els f g n i = (m : ℚ) • el f (ratOps.polyVarPow i) ∧ IsIntegral ℤ (els f g n i) ∧
      (qp (g.getD i [])).degree < n ∧ (IsIntegral ℤ (el f (ratOps.polyVarPow i)) → m ∣ 1) := by
    intro i
    have h1 := hget i (by simp) (by omega)
    rw [List.getElem_range] at h1
    obtain ⟨m, m1, m2, m3, m4, m5⟩ := integralMultiple_sound _ _ h1
    have e1 : els f g n i = el f (g[(i : Nat)]'(by omega)) := by
      unfold els
      rw [List.getD_eq_getElem _ _ (by omega)]
    refine ⟨m, m1, by rw [e1, m2], by rw [e1]; exact m3, ?_, m5⟩
    rw [List.getD_eq_getElem _ _ (by omega), m4, ratOps_models.toRing.toSemi.polyMul, polyVarPow_val]
    have : qp (polyConst (m : ℚ)) = C (m : ℚ) := by simp [polyConst, polyVal]
    rw [this]
    refine lt_of_le_of_lt (cmul_deg _ _) ?_
    rw [degree_X_pow]
    exact_mod_cast i.2
  choose m m1 m2 m3 m4 m5 using hex
  refine ⟨m, hl, m1, m2, ?_, m3, m5⟩
  intro x hx
  obtain ⟨i, hi, rfl⟩ := List.getElem_of_mem hx
  have := m4 ⟨i, by omega⟩
  rw [List.getD_eq_getElem _ _ hi] at this
  exact this

theorem Start.inv (hn : (qp f).natDegree = n) {g : List (List ℚ)} {m : Fin n → ℤ} (h : Start f n g m) : Inv f n g := by
  refine ⟨h.len, h.deg, h.int, ?_⟩
  subst hn
  let b : Module.Basis (Fin (qp f).natDegree) ℚ (NumField f) := (AdjoinRoot.powerBasis (irr_ne f)).basis
  have hb : ∀ i, b i = el f (ratOps.polyVarPow i) := by
    intro i
    have e := PowerBasis.basis_eq_pow (AdjoinRoot.powerBasis (irr_ne f)) i
    rw [AdjoinRoot.powerBasis_gen] at e
    refine e.trans ?_
    unfold el
    rw [polyVarPow_val, map_pow, AdjoinRoot.mk_X]
  let b' := b.isUnitSMul (w := fun i => ((m i : ℤ) : ℚ)) (fun i => IsUnit.mk0 _ (by exact_mod_cast h.nz i))
  have hb' : els f g (qp f).natDegree = b' := by
    funext i
    rw [h.eq, ← hb]
    exact (b.isUnitSMul_apply (w := fun i => ((m i : ℤ) : ℚ)) _ i).symm
  rw [hb']
  exact Algebra.discr_not_zero_of_basis ℚ b'

theorem computeIntegralBasis_sound (isPrime : Nat → Option Bool) (hP : Props.Natural.PrimalitySound isPrime) (l : List (List ℚ))
    (e : computeIntegralBasis isPrime f = some l) : IsIntegralBasis f l := by
  unfold computeIntegralBasis at e
  rw [ratOps_models.pqDegree f (irr_ne f)] at e
  simp only [Option.bind_eq_bind, Option.bind_some, Option.bind_eq_some_iff] at e
  obtain ⟨g, g1, g2⟩ := e
  obtain ⟨m, hm⟩ := start_spec g1
  exact searchLoop_sound isPrime hP rfl g l (hm.inv rfl) g2

theorem computeIntegralBasis_total (isPrime : Nat → Option Bool) (ht : MinPolyTotal f) :
    ∃ g m, Start f (qp f).natDegree g m ∧ ∀ D : ℤ, (D : ℚ) = Algebra.discr ℚ (els f g (qp f).natDegree) →
      (∀ d : ℤ, d ≠ 0 → d ∣ D → ∃ r, intFactor isPrime d = some r ∧ FacFacts d r) →
      (∀ p : ℕ, p.Prime → (p : ℤ) ∣ D → p < machineRange) →
      ∃ l, computeIntegralBasis isPrime f = some l ∧ IsIntegralBasis f l := by
  obtain ⟨g, g1, -⟩ := Verif.RealRoots.mapM_range (fun i => integralMultiple f (ratOps.polyVarPow i)) (fun _ _ => True) (qp f).natDegree (by
    intro i _
    obtain ⟨b, hb⟩ := integralMultiple_total (ratOps.polyVarPow i) ht
    exact ⟨b, hb, trivial⟩)
  obtain ⟨m, hm⟩ := start_spec g1
  refine ⟨g, m, hm, ?_⟩
  intro D hD hF hM
  obtain ⟨l, l1, l2⟩ := searchLoop_total isPrime rfl ht D hF hM g (hm.inv rfl) D hD dvd_rfl
  refine ⟨l, ?_, l2⟩
  unfold computeIntegralBasis
  rw [ratOps_models.pqDegree f (irr_ne f)]
  simp only [Option.bind_eq_bind, Option.bind_some, g1]
  exact l1

end

end Verif.Anf
