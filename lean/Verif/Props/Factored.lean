import Verif.Proofs.Factored

/-! # C43, C44, C49: factored elements

`Factored.denote v f` is the ring element `unit * p₁^k₁ * …`, and `Factored.Valid S v f` says that `f` is a factorization
into a unit and distinct irreducible favourite associates with positive exponents (`Verif.Spec.Structure`). -/

namespace Verif.Rings
namespace Factored

/-- C43: `expand` is the element denoted. -/
theorem C43_expand {α R : Type} [CommRing R] {S : FavOps α} {v : α → R} (h : S.Models v) (f : Factored α) :
    v (f.expand S) = v f.unit * (f.factors.map fun p => v p.1 ^ p.2).prod := expand_eq h.toSemi f

/-- C43: multiplying two factored elements whose factors are favourite associates never panics and gives a factored
element denoting the product; if both are valid factorizations so is the result (in particular equal primes are merged). -/
theorem C43_mul {α R : Type} [CommRing R] {S : FavOps α} {v : α → R} (h : S.Models v) (a b : Factored α)
    (ha : ∀ q ∈ a.factors, S.IsFav v (v q.1)) (hb : ∀ q ∈ b.factors, S.IsFav v (v q.1)) :
    ∃ c, mul S a b = some c ∧ v (c.expand S) = v (a.expand S) * v (b.expand S) ∧
      (a.Valid S v → b.Valid S v → c.Valid S v) := by
  obtain ⟨c, c1, c2, c3⟩ := mul_spec h a b ha hb
  refine ⟨c, c1, ?_, c3⟩
  rw [expand_eq h.toSemi, expand_eq h.toSemi, expand_eq h.toSemi, c2]

/-- C43 (partial): `pow` gives the power up to the unit: it leaves the unit unchanged instead of raising it, so the result is
right when the unit is `1` (or satisfies `u^k = u`). -/
theorem C43_pow_partial {α R : Type} [CommRing R] {S : FavOps α} {v : α → R} (h : S.Models v) (f : Factored α) (k : Nat) :
    v ((f.pow k).expand S) * v f.unit ^ k = v f.unit * v (f.expand S) ^ k ∧
    (v f.unit ^ k = v f.unit → v ((f.pow k).expand S) = v (f.expand S) ^ k) := by
  have e : ((f.pow k).factors.map fun p => v p.1 ^ p.2).prod = (f.factors.map fun p => v p.1 ^ p.2).prod ^ k := by
    simp only [pow, List.map_map, Function.comp_def, pow_mul]
    induction f.factors with
    | nil => simp
    | cons p t ih => simp [ih, mul_pow]
  rw [expand_eq h.toSemi, expand_eq h.toSemi, denote, denote, e]
  constructor
  · change v f.unit * _ * _ = _
    rw [mul_pow]; ring
  · intro hu
    rw [mul_pow, hu]; rfl

/-- C43: the library's `pow` is wrong: squaring the factorization of `-2` gives `-4`. -/
theorem C43_pow_wrong :
    ∃ f : Factored Int, f.Valid intOps.toFavOps id ∧ f.expand intOps.toFavOps = -2 ∧
      (f.pow 2).expand intOps.toFavOps = -4 ∧ (-2 : Int) ^ 2 ≠ -4 := by
  refine ⟨⟨-1, [(2, 1)]⟩, ⟨Int.isUnit_iff.2 (Or.inr rfl), ?_, ?_, by simp, by simp⟩, by decide, ?_, by decide⟩
  · simp only [List.mem_singleton, forall_eq]; exact Int.prime_two.irreducible
  · simp only [List.mem_singleton, forall_eq]
    intro a u w h1 h2
    change a = 2 at h1
    subst h1
    simp only [intOps, intFav] at h2
    simp at h2
    exact h2.2.symm
  · have := expand_eq intOps_models.toSemi (pow (⟨-1, [(2, 1)]⟩ : Factored Int) 2)
    simpa [denote, pow] using this

/-- C43: on valid factorizations `equal` decides whether the same element is denoted (unique factorization). -/
theorem C43_equal {α R : Type} [CommRing R] [IsDomain R] [UniqueFactorizationMonoid R] {S : FavOps α} {v : α → R}
    (h : S.Models v) (a b : Factored α) (ha : a.Valid S v) (hb : b.Valid S v) :
    equal S a b = true ↔ v (a.expand S) = v (b.expand S) := by
  rw [expand_eq h.toSemi, expand_eq h.toSemi]
  unfold equal
  simp only [Bool.and_eq_true, List.all_eq_true, List.any_eq_true, h.equal, Bool.or_eq_true, Bool.not_eq_true',
    beq_iff_eq, ← Bool.not_eq_true]
  constructor
  · rintro ⟨⟨⟨h1, h2⟩, h3⟩, h4⟩
    have hperm : (a.factors.map fun p => (v p.1, p.2)).Perm (b.factors.map fun p => (v p.1, p.2)) := by
      have hnd : ∀ f : Factored α, f.Valid S v → (f.factors.map fun p => (v p.1, p.2)).Nodup := by
        intro f hf
        apply List.Nodup.of_map Prod.fst
        rw [List.map_map]; exact hf.distinct
      rw [List.perm_ext_iff_of_nodup (hnd a ha) (hnd b hb)]
      rintro ⟨r, n⟩
      simp only [List.mem_map, Prod.mk.injEq]
      constructor
      · rintro ⟨p, hp, rfl, rfl⟩
        obtain ⟨q, hq, e⟩ := h2 p hp
        rcases h4 p hp q hq with h5 | h5
        · exact absurd e h5
        · exact ⟨q, hq, e.symm, h5.symm⟩
      · rintro ⟨q, hq, rfl, rfl⟩
        obtain ⟨p, hp, e⟩ := h3 q hq
        rcases h4 p hp q hq with h5 | h5
        · exact absurd e h5
        · exact ⟨p, hp, e, h5⟩
    have := (hperm.map fun p => p.1 ^ p.2).prod_eq
    simp only [List.map_map, Function.comp_def] at this
    rw [denote, denote, h1, this]
  · intro e
    obtain ⟨h1, h2⟩ := valid_unique h a b ha hb e
    obtain ⟨-, h3⟩ := valid_unique h b a hb ha e.symm
    refine ⟨⟨⟨h1, fun p hp => ?_⟩, fun q hq => ?_⟩, fun p hp q hq => ?_⟩
    · obtain ⟨q, hq, e1, -⟩ := h2 p hp; exact ⟨q, hq, e1⟩
    · obtain ⟨p, hp, e1, -⟩ := h3 q hq; exact ⟨p, hp, e1.symm⟩
    · by_cases hpq : v p.1 = v q.1
      · right
        obtain ⟨q', hq', e1, e2⟩ := h2 p hp
        have m1 := emultiplicity_eq h b hb q hq
        have m2 := emultiplicity_eq h b hb q' hq'
        rw [← e1, hpq, m1] at m2
        rw [e2]; exact_mod_cast m2.symm
      · left; exact hpq

/-- C43: `make_squarefree` keeps each prime once: the result denotes the product of the distinct primes and is valid if the
input is; `factors_list` lists the primes with multiplicity. -/
theorem C43_squarefree_list {α R : Type} [CommRing R] {S : FavOps α} {v : α → R} (h : S.Models v) (f : Factored α) :
    v (f.expandSquarefree S) = (f.factors.map fun p => v p.1).prod ∧
    (f.Valid S v → (f.makeSquarefree S).Valid S v) ∧
    v f.unit * (f.factorsList.map v).prod = v (f.expand S) := by
  refine ⟨?_, ?_, ?_⟩
  · rw [expandSquarefree, expand_eq h.toSemi, denote, makeSquarefree, h.one, one_mul, List.map_map]
    simp [Function.comp_def]
  · intro hf
    refine ⟨by rw [makeSquarefree, h.one]; exact isUnit_one, ?_, ?_, ?_, ?_⟩
    · intro p hp
      obtain ⟨q, hq, rfl⟩ := List.mem_map.1 hp
      exact hf.irreducible q hq
    · intro p hp
      obtain ⟨q, hq, rfl⟩ := List.mem_map.1 hp
      exact hf.fav q hq
    · intro p hp
      obtain ⟨q, hq, rfl⟩ := List.mem_map.1 hp
      simp
    · simp only [makeSquarefree, List.map_map, Function.comp_def]; exact hf.distinct
  · rw [expand_eq h.toSemi, denote, factorsList]
    congr 1
    induction f.factors with
    | nil => rfl
    | cons p t ih => simp [ih]

/-- C43: `is_irreducible` of a valid factorization answers whether the element is irreducible. -/
theorem C43_is_irreducible {α R : Type} [CommRing R] [IsDomain R] [UniqueFactorizationMonoid R] {S : FavOps α} {v : α → R}
    (h : S.Models v) (f : Factored α) (hf : f.Valid S v) : f.isIrreducible = true ↔ Irreducible (v (f.expand S)) := by
  rw [expand_eq h.toSemi]
  constructor
  · intro hi
    unfold isIrreducible at hi
    split at hi
    · rename_i p hfac
      simp only [beq_iff_eq] at hi
      rw [denote, hfac]
      simp only [List.map_cons, List.map_nil, List.prod_cons, List.prod_nil, mul_one, hi, pow_one]
      exact (irreducible_isUnit_mul hf.unit).2 (hf.irreducible p (by simp [hfac]))
    · simp at hi
  · intro hi
    -- compare with the one-factor factorization of the element itself
    obtain ⟨x, hx⟩ := h.surj (f.denote v)
    obtain ⟨g, g1, g2, g3⟩ := factoredIrreducible_spec h x (by rw [hx]; exact hi)
    have hgf : f.denote v = g.denote v := by rw [g3, hx]
    obtain ⟨-, h2⟩ := valid_unique h f g hf g2 hgf
    obtain ⟨-, h3⟩ := valid_unique h g f g2 hf hgf.symm
    obtain ⟨u, w, hw⟩ : ∃ u w, g = ⟨u, [(w, 1)]⟩ := by
      simp only [factoredIrreducible, Option.map_eq_some_iff] at g1
      obtain ⟨p, -, rfl⟩ := g1
      exact ⟨_, _, rfl⟩
    subst hw
    have hall : ∀ p ∈ f.factors, v p.1 = v w ∧ p.2 = 1 := by
      intro p hp
      obtain ⟨q, hq, e1, e2⟩ := h2 p hp
      simp only [List.mem_singleton] at hq
      subst hq
      exact ⟨e1, e2⟩
    have hnd := hf.distinct
    unfold isIrreducible
    rcases hfac : f.factors with _ | ⟨p, _ | ⟨q, t⟩⟩
    · obtain ⟨q, hq, -⟩ := h3 (w, 1) (by simp)
      rw [hfac] at hq; simp at hq
    · simp [(hall p (by simp [hfac])).2]
    · exfalso
      rw [hfac] at hnd
      simp only [List.map_cons, List.nodup_cons, List.mem_cons, not_or] at hnd
      exact hnd.1.1 ((hall p (by simp [hfac])).1.trans (hall q (by simp [hfac])).1.symm)

/-- C43: `check_invariants` returns `Ok` exactly when the unit is a unit and every factor has positive exponent, is its own favourite
associate and is irreducible. (It does not check that the factors are distinct.) -/
theorem C43_check_invariants {α R : Type} [CommRing R] {S : FavOps α} {v : α → R} (h : S.Models v)
    (irr : α → Option Bool) (hirr : ∀ a, ∃ b, irr a = some b ∧ (b = true ↔ Irreducible (v a))) (f : Factored α) :
    ∃ b, f.checkInvariants S irr = some b ∧
      (b = true ↔ IsUnit (v f.unit) ∧ ∀ p ∈ f.factors, p.2 ≠ 0 ∧ S.IsFav v (v p.1) ∧ Irreducible (v p.1)) := by
  classical
  have hone : ∀ p : α × Nat, ∃ b, checkFactor S irr p = some b ∧
      (b = true ↔ p.2 ≠ 0 ∧ S.IsFav v (v p.1) ∧ Irreducible (v p.1)) := by
    intro p
    unfold checkFactor
    by_cases h0 : p.2 = 0
    · exact ⟨false, by simp [h0], by simp [h0]⟩
    · rw [if_neg h0, h.isFavAssoc]
      by_cases hf : S.IsFav v (v p.1)
      · obtain ⟨b, b1, b2⟩ := hirr p.1
        exact ⟨b, by simp [hf, b1], by simp [b2, h0, hf]⟩
      · exact ⟨false, by simp [hf], by simp [hf]⟩
  have hlist : ∀ l : List (α × Nat), ∃ b, checkFactors S irr l = some b ∧
      (b = true ↔ ∀ p ∈ l, p.2 ≠ 0 ∧ S.IsFav v (v p.1) ∧ Irreducible (v p.1)) := by
    intro l
    induction l with
    | nil => exact ⟨true, rfl, by simp⟩
    | cons p t ih =>
      obtain ⟨b, b1, b2⟩ := hone p
      obtain ⟨c, c1, c2⟩ := ih
      cases b with
      | true => exact ⟨c, by simp [checkFactors, b1, c1], by
          rw [c2]; simp only [List.mem_cons, forall_eq_or_imp]; exact ⟨fun x => ⟨b2.1 rfl, x⟩, fun x => x.2⟩⟩
      | false => exact ⟨false, by simp [checkFactors, b1], by
          simp only [Bool.false_eq_true, List.mem_cons, forall_eq_or_imp, false_iff, not_and]
          exact fun x => absurd (b2.2 x) (by simp)⟩
  unfold checkInvariants
  rw [h.toDomain.isUnit]
  by_cases hu : IsUnit (v f.unit)
  · obtain ⟨c, c1, c2⟩ := hlist f.factors
    exact ⟨c, by simp [hu, c1], by simp [c2, hu]⟩
  · exact ⟨false, by simp [hu], by simp [hu]⟩

/-- C43: `check_invariants` accepts a factorization with a repeated prime, which is not valid. -/
theorem C43_check_invariants_repeated :
    ∃ f : Factored Int, ¬ f.Valid intOps.toFavOps id ∧
      ∀ irr : Int → Option Bool, irr 2 = some true → f.checkInvariants intOps.toFavOps irr = some true := by
  refine ⟨⟨1, [(2, 1), (2, 1)]⟩, fun hf => by simpa using hf.distinct, ?_⟩
  intro irr h2
  have h1 : intOps.isUnit 1 = some true := by decide
  have h3 : intOps.isFavAssoc 2 = some true := by decide
  simp [checkInvariants, h1, checkFactors, checkFactor, h3, h2]

/-- the integers `2` and `3` are favourite associates -/
theorem int_isFav (n : Int) (hn : 0 ≤ n) : intOps.toFavOps.IsFav id n := by
  intro a u w h1 h2
  change a = n at h1
  subst h1
  simp only [intOps, Option.some.injEq] at h2
  have := (intFav_eq a).1
  rw [h2] at this
  simpa [abs_of_nonneg hn] using this

/-- the factorization `-1 * 2^3 * 3` of `-24` -/
def exF : Factored Int := ⟨-1, [(2, 3), (3, 1)]⟩

theorem exF_valid : exF.Valid intOps.toFavOps id where
  unit := Int.isUnit_iff.2 (Or.inr rfl)
  irreducible p hp := by
    simp only [exF, List.mem_cons, List.not_mem_nil, or_false] at hp
    rcases hp with rfl | rfl
    · exact Int.prime_two.irreducible
    · exact Int.prime_three.irreducible
  fav p hp := by
    simp only [exF, List.mem_cons, List.not_mem_nil, or_false] at hp
    rcases hp with rfl | rfl
    · exact int_isFav _ (by decide)
    · exact int_isFav _ (by decide)
  pos p hp := by
    simp only [exF, List.mem_cons, List.not_mem_nil, or_false] at hp
    rcases hp with rfl | rfl <;> decide
  distinct := by simp [exF]

example : ∃ c, mul intOps.toFavOps exF exF = some c ∧ c.expand intOps.toFavOps = exF.expand intOps.toFavOps * exF.expand intOps.toFavOps ∧
    (exF.Valid intOps.toFavOps id → exF.Valid intOps.toFavOps id → c.Valid intOps.toFavOps id) :=
  C43_mul intOps_models.toFav exF exF exF_valid.fav exF_valid.fav
example : equal intOps.toFavOps exF exF = true := (C43_equal intOps_models.toFav exF exF exF_valid exF_valid).2 rfl
example : mul intOps.toFavOps exF (factoredOne intOps.toFavOps) = some exF := rfl

/-! ## C44 -/

/-- C44: `divisors()` of a valid factorization lists every divisor of the element exactly once up to units: each listed element
divides it, every divisor is associated to a listed one, and no two listed elements are associated; `count_divisors()`
is the number of listed elements. -/
theorem C44_divisors {α R : Type} [CommRing R] [IsDomain R] [UniqueFactorizationMonoid R] {S : FavOps α} {v : α → R}
    (h : S.Models v) (f : Factored α) (hf : f.Valid S v) :
    (∀ d ∈ f.divisors S, v d ∣ v (f.expand S)) ∧
    (∀ r : R, r ∣ v (f.expand S) → ∃ d ∈ f.divisors S, Associated r (v d)) ∧
    (f.divisors S).Pairwise (fun a b => ¬ Associated (v a) (v b)) ∧
    f.countDivisors = (f.divisors S).length := by
  have hprime : ∀ p ∈ f.factors, Prime (v p.1) :=
    fun p hp => UniqueFactorizationMonoid.irreducible_iff_prime.1 (hf.irreducible p hp)
  have hvals := divisors_vals (v := v) h.toSemi f
  rw [expand_eq h.toSemi, denote]
  refine ⟨?_, ?_, ?_, ?_⟩
  · intro d hd
    have : v d ∈ divVals v f.factors := by rw [← hvals]; exact List.mem_map_of_mem hd
    exact (divVals_dvd f.factors _ this).mul_left _
  · intro r hr
    rw [hf.unit.dvd_mul_left] at hr
    obtain ⟨d, hd, ha⟩ := divVals_complete f.factors hprime r hr
    rw [← hvals] at hd
    obtain ⟨x, hx, rfl⟩ := List.mem_map.1 hd
    exact ⟨x, hx, ha⟩
  · have hp := divVals_pairwise f.factors hprime (by
      have := hf.distinct
      rw [List.Nodup, List.pairwise_map] at this
      refine this.imp_of_mem ?_
      intro p q hp hq hne ha
      exact hne (h.isFav_eq (hf.fav p hp) (hf.fav q hq) ha))
    rw [← hvals, List.pairwise_map] at hp
    exact hp
  · rw [countDivisors_eq, ← divVals_length (v := v), ← hvals, List.length_map]

example : exF.divisors intOps.toFavOps = [1, 3, 2, 6, 4, 12, 8, 24] := by decide
example : exF.countDivisors = 8 := by decide
example := C44_divisors intOps_models.toFav exF exF_valid

end Factored

/-! ## C49 -/

/-- C49: `factorize_by_find_factor` with a sound splitting procedure terminates on every non-zero element of a unique factorization
domain and returns its factorization: if the procedure, on every non-zero non-unit, either reports `Irreducible` correctly or splits it
into two non-units, then the result is valid and expands to the element. -/
theorem C49_find_factor {α R : Type} [CommRing R] [IsDomain R] [UniqueFactorizationMonoid R] {S : FavOps α} {v : α → R}
    (h : S.Models v) (partialFactor : α → Option (FindFactorResult α))
    (hpf : ∀ e, v e ≠ 0 → ¬ IsUnit (v e) → ∃ r, partialFactor e = some r ∧
      match r with
      | .irreducible => Irreducible (v e)
      | .composite g k => v e = v g * v k ∧ ¬ IsUnit (v g) ∧ ¬ IsUnit (v k))
    (e : α) (he : v e ≠ 0) :
    ∃ f, factorizeByFindFactor S partialFactor e = some f ∧ f.Valid S v ∧ v (f.expand S) = v e := by
  obtain ⟨f, f1, f2, f3⟩ := factorizeByFindFactor_spec h partialFactor hpf e he
  exact ⟨f, f1, f2, by rw [Factored.expand_eq h.toSemi, f3]⟩

/-- C49: `factor` of an integer is `None` for zero; whenever it returns for a non-zero integer it returns its factorization
into a sign and distinct positive primes. -/
theorem C49_int_factor (isPrime : Nat → Option Bool) (hP : Props.Natural.PrimalitySound isPrime) (a : Int) :
    intFactor isPrime 0 = some none ∧
    ∀ r, a ≠ 0 → intFactor isPrime a = some r → ∃ f, r = some f ∧ f.Valid intOps.toFavOps id ∧
      f.expand intOps.toFavOps = a := by
  refine ⟨by simp [intFactor], ?_⟩
  intro r ha hr
  rw [intFactor, if_neg ha, Option.bind_eq_some_iff] at hr
  obtain ⟨s, hs, hr⟩ := hr
  obtain ⟨f, rfl, hf1, hf2, hf3⟩ := (Props.Natural.C34_factor isPrime hP a.natAbs).2 s (by omega) hs
  simp only [Option.map_some, Option.some.injEq] at hr
  subst hr
  have hf : ∀ p ∈ (f.map fun pk => ((pk.1 : Int), pk.2)), ∃ pk ∈ f, p = ((pk.1 : Int), pk.2) := by
    intro p hp
    obtain ⟨pk, h1, rfl⟩ := List.mem_map.1 hp
    exact ⟨pk, h1, rfl⟩
  refine ⟨_, rfl, ⟨?_, ?_, ?_, ?_, ?_⟩, ?_⟩
  · change IsUnit (if a < 0 then (-1 : Int) else 1)
    split <;> simp
  · intro p hp
    obtain ⟨pk, h1, rfl⟩ := hf p hp
    exact (Nat.prime_iff_prime_int.1 (hf1 pk h1).1).irreducible
  · intro p hp
    obtain ⟨pk, h1, rfl⟩ := hf p hp
    exact Factored.int_isFav _ (by simp)
  · intro p hp
    obtain ⟨pk, h1, rfl⟩ := hf p hp
    exact (hf1 pk h1).2
  · simp only [List.map_map, Function.comp_def, id]
    have : (f.map fun pk => (pk.1 : Int)) = (f.map (·.1)).map (fun n : Nat => (n : Int)) := by simp [Function.comp_def]
    rw [this]
    exact hf2.map (fun a b hab => by exact_mod_cast hab)
  · have := Factored.expand_eq intOps_models.toSemi
      (⟨if a < 0 then -1 else 1, f.map fun pk => ((pk.1 : Int), pk.2)⟩ : Factored Int)
    simp only [id] at this
    rw [this, Factored.denote]
    simp only [id, List.map_map, Function.comp_def]
    have e : (f.map fun pk => ((pk.1 : Int)) ^ pk.2).prod = (((f.map fun pk => pk.1 ^ pk.2).prod : Nat) : Int) := by
      push_cast
      rw [List.map_map]
      simp [Function.comp_def]
    rw [e, hf3]
    split <;> omega

/-- C49: with the library's primality test, factoring a non-zero integer below `10001²` in absolute value does return. -/
theorem C49_int_factor_total (aks : Nat → Option Natural.PrimalityTestResult) (a : Int) (ha : a ≠ 0)
    (hlt : a.natAbs < 10001 * 10001) : ∃ f, intFactor (Natural.isPrimeWith aks) a = some (some f) := by
  obtain ⟨g, hg, -⟩ := Props.Natural.C34_factor_total_small aks a.natAbs (by omega) hlt
  exact ⟨_, by rw [intFactor, if_neg ha, hg]; rfl⟩

/-- C49: `is_irreducible` through a correct `factor` decides irreducibility. -/
theorem C49_is_irreducible {α R : Type} [CommRing R] [IsDomain R] [UniqueFactorizationMonoid R] {S : FavOps α} {v : α → R}
    (h : S.Models v) (factor : α → Option (Option (Factored α))) (a : α)
    (hf : ∃ r, factor a = some r ∧ (v a = 0 → r = none) ∧
      (v a ≠ 0 → ∃ f, r = some f ∧ f.Valid S v ∧ v (f.expand S) = v a)) :
    ∃ b, isIrreducibleBy factor a = some b ∧ (b = true ↔ Irreducible (v a)) := by
  obtain ⟨r, r1, r2, r3⟩ := hf
  by_cases h0 : v a = 0
  · refine ⟨false, by simp [isIrreducibleBy, r1, r2 h0], ?_⟩
    simp [h0]
  · obtain ⟨f, rfl, f2, f3⟩ := r3 h0
    exact ⟨f.isIrreducible, by simp [isIrreducibleBy, r1], by rw [Factored.C43_is_irreducible h f f2, f3]⟩

/-- C49: the `factor` of a field is correct. -/
theorem C49_field_factor {α F : Type} [Field F] {S : DomainOps α} {v : α → F} (h : S.Models v) (a : α) :
    ∃ r, fieldFactor S.fieldFav a = some r ∧ (v a = 0 → r = none) ∧
      (v a ≠ 0 → ∃ f, r = some f ∧ f.Valid S.fieldFav v ∧ v (f.expand S.fieldFav) = v a) := by
  refine ⟨_, rfl, ?_, ?_⟩
  · intro h0
    rw [if_pos]
    exact (h.toSemi.isZero a).2 h0
  · intro h0
    refine ⟨⟨a, []⟩, ?_, ⟨isUnit_iff_ne_zero.2 h0, by simp, by simp, by simp, by simp⟩, ?_⟩
    · rw [if_neg]
      rw [show S.fieldFav.isZero a = false from (h.toSemi.isZero_false a).2 h0]; simp
    · rfl

/-- a splitting procedure for the integers -/
def exSplit (n : Int) : Option (FindFactorResult Int) :=
  some (if h : n.natAbs.Prime then .irreducible else .composite n.natAbs.minFac (n / n.natAbs.minFac))

example : ∃ f, factorizeByFindFactor intOps.toFavOps exSplit (-60) = some f ∧ f.Valid intOps.toFavOps id ∧
    f.expand intOps.toFavOps = -60 := by
  refine C49_find_factor intOps_models.toFav exSplit ?_ (-60) (by decide)
  intro e he hu
  refine ⟨_, rfl, ?_⟩
  change e ≠ 0 at he
  have h1 : e.natAbs ≠ 1 := fun h => hu (Int.isUnit_iff_natAbs_eq.2 h)
  by_cases hp : e.natAbs.Prime
  · simp only [hp, dif_pos]
    exact (Int.prime_iff_natAbs_prime.2 hp).irreducible
  · simp only [hp, dif_neg, not_false_eq_true]
    have hd : (e.natAbs.minFac : Int) ∣ e := Int.natCast_dvd.2 (Nat.minFac_dvd _)
    have hm := Nat.minFac_prime h1
    have hlt : e.natAbs.minFac < e.natAbs := (Nat.not_prime_iff_minFac_lt (by omega)).1 hp
    refine ⟨(Int.mul_ediv_cancel' hd).symm, ?_, ?_⟩
    · intro hu'
      have := Int.isUnit_iff_natAbs_eq.1 hu'
      simp at this
      omega
    · intro hu'
      have h2 := Int.isUnit_iff_natAbs_eq.1 hu'
      have h3 := congrArg Int.natAbs (Int.mul_ediv_cancel' hd)
      rw [Int.natAbs_mul] at h3
      simp only [id] at h2
      rw [h2] at h3
      simp at h3
      omega

example : ∃ f, intFactor (Natural.isPrimeWith fun _ => none) (-360) = some (some f) :=
  C49_int_factor_total _ (-360) (by decide) (by decide)

end Verif.Rings
