import Verif.Proofs.BzFactor
import Verif.Proofs.Kronecker

/-!
# The naive Berlekamp–Zassenhaus algorithm
-/

namespace Verif.Rings

open Polynomial

/-- the candidate exists and is not zero -/
theorem bzCandidate_ne (M lc : Int) (hM : 0 < M) (prod : List Int) (i : ℕ) (hi : ¬ M ∣ lc * (polyVal (id : Int → Int) prod).coeff i) :
    ∃ g, bzCandidate M lc prod = some g ∧ polyVal (id : Int → Int) g ≠ 0 := by
  choose y hy1 hy2 hy3 using fun c => centredRep_spec M c hM
  obtain ⟨l, hl⟩ : ∃ l, l = (intOps.polyMul (polyConst lc) prod).map y := ⟨_, rfl⟩
  have hmap : (intOps.polyMul (polyConst lc) prod).mapM (centredRep M) = some l := by
    rw [hl]; exact mapM_eq_map _ fun x _ => hy1 x
  have hy0 : y 0 = 0 := hy3 0 0 (by simpa using hM) (by simp)
  have hL : (polyVal (id : Int → Int) l).coeff i = y (lc * (polyVal (id : Int → Int) prod).coeff i) := by
    have e1 := intOps_models.toSemi.polyMul (polyConst lc) prod
    rw [polyVal_const] at e1
    have e2 : lc * (polyVal (id : Int → Int) prod).coeff i = (intOps.polyMul (polyConst lc) prod).getD i 0 := by
      have := congrArg (fun q => q.coeff i) e1
      simp only [coeff_C_mul] at this
      rw [coeff_polyVal id 0 rfl] at this
      exact this.symm
    rw [e2, coeff_polyVal id 0 rfl, hl]
    simp only [List.getD_eq_getElem?_getD, List.getElem?_map, id]
    cases (intOps.polyMul (polyConst lc) prod)[i]? with
    | none => simp [hy0]
    | some a => simp
  have hne : polyVal (id : Int → Int) l ≠ 0 := by
    intro e
    have h1 := hy2 (lc * (polyVal (id : Int → Int) prod).coeff i)
    rw [← hL, e, coeff_zero, zero_sub, dvd_neg] at h1
    exact hi h1
  obtain ⟨c, g, c1, c2, c3, c4, c5, -⟩ := intOps_models.bezout.toGcd.polyFactorPrimitive l hne
  refine ⟨g, ?_, c5.ne_zero⟩
  rw [bzCandidate]
  simp only [hmap, GcdOps.polyPrimitivePart, c1, Option.bind_eq_bind, Option.bind_some, Option.map_some]

/-- the places chosen -/
def chosenSet (subset : List Bool) (n : ℕ) : Finset ℕ := (Finset.range n).filter fun i => subset.getD i false = true

theorem chosen_prod (subset : List Bool) (l : List (List ℤ)) :
    ((chosenFactors subset l).map (polyVal (id : Int → Int))).prod = ∏ i ∈ chosenSet subset l.length, polyVal (id : Int → Int) (l.getD i []) := by
  induction l generalizing subset with
  | nil => simp [chosenFactors, chosenSet]
  | cons a l ih =>
    cases subset with
    | nil => simp [chosenFactors, chosenSet]
    | cons b subset =>
      rw [chosenSet, Finset.prod_filter, List.length_cons, Finset.prod_range_succ']
      have h1 := ih subset
      rw [chosenSet, Finset.prod_filter] at h1
      simp only [List.getD_cons_succ, List.getD_cons_zero]
      rw [← h1]
      cases b <;> simp [chosenFactors, mul_comm]

theorem exists_chosen (S : Finset ℕ) (n : ℕ) (hS : S ⊆ Finset.range n) :
    ∃ subset ∈ Factored.multiCartesianProduct (List.replicate n [false, true]), chosenSet subset n = S := by
  refine ⟨(List.range n).map fun i => decide (i ∈ S), ?_, ?_⟩
  · rw [mem_multiCartesianProduct, List.forall₂_iff_get]
    refine ⟨by simp, fun i h1 h2 => ?_⟩
    simp [Classical.em, or_comm]
  · ext i
    simp only [chosenSet, Finset.mem_filter, Finset.mem_range]
    constructor
    · rintro ⟨h1, h2⟩
      simpa [List.getD_eq_getElem?_getD, h1] using h2
    · intro h
      have h1 := Finset.mem_range.1 (hS h)
      exact ⟨h1, by simpa [List.getD_eq_getElem?_getD, h1] using h⟩

section
variable {L : List ℤ} {M : ℕ} {p : ℤ} {t : HenselFact ℤ} {fs : List (List ℤ)}

/-- the product of chosen modular factors keeps a leading coefficient prime to `p` -/
theorem chosen_lc (h : ModStage L M p t fs) (hp : 0 < p)
    (subset : List Bool) (hlen : fs.length ≠ 0) : ∃ i, ¬ p ∣ (polyVal (id : Int → Int) (intOps.toSemiRingOps.poly.product (chosenFactors subset t.factors))).coeff i := by
  have hprod : polyVal (id : Int → Int) (intOps.toSemiRingOps.poly.product (chosenFactors subset t.factors)) =
      ((chosenFactors subset t.factors).map (polyVal (id : Int → Int))).prod := intOps_models.toSemi.poly.product _
  rw [hprod]
  have hpp : Prime p := h.mf.hp
  by_cases h1 : fs.length = 1
  · have hfac : t.factors = [L] := by
      rw [HenselFact.factors, h.leaf.1 h1, h.h]; rfl
    rw [hfac]
    cases subset with
    | nil => exact ⟨0, by simpa [chosenFactors] using fun hd => hpp.not_unit (isUnit_of_dvd_one hd)⟩
    | cons b l =>
      cases b
      · exact ⟨0, by simpa [chosenFactors] using fun hd => hpp.not_unit (isUnit_of_dvd_one hd)⟩
      · exact ⟨(polyVal (id : Int → Int) L).natDegree, by simpa [chosenFactors] using h.mf.lc⟩
  · obtain ⟨m1, m2⟩ := h.mf' (by omega)
    rw [chosen_prod]
    have hm := m2.prod_monic (S := chosenSet subset t.factors.length) (Finset.filter_subset _ _)
    refine ⟨(∏ i ∈ chosenSet subset t.factors.length, polyVal (id : Int → Int) (t.factors.getD i [])).natDegree, ?_⟩
    rw [hm.coeff_natDegree]
    exact fun hd => hpp.not_unit (isUnit_of_dvd_one hd)

/-- The search of the naive version is right. -/
theorem bzNaiveSearch_spec (h : ModStage L M p t fs) (hp : 0 < p)
    (hprim : (polyVal (id : Int → Int) L).IsPrimitive) (hd : 0 < (polyVal (id : Int → Int) L).natDegree)
    (hM : 2 * (l1 (polyVal (id : Int → Int) L) * (polyVal (id : Int → Int) L).natDegree.choose ((polyVal (id : Int → Int) L).natDegree / 2)) ≤ M) :
    ∃ r, bzNaiveSearch L (polyVal (id : Int → Int) L).natDegree t = some r ∧
      match r with
      | .irreducible => Irreducible (polyVal (id : Int → Int) L)
      | .composite g k => polyVal (id : Int → Int) L = polyVal (id : Int → Int) g * polyVal (id : Int → Int) k ∧
        ¬ IsUnit (polyVal (id : Int → Int) g) ∧ ¬ IsUnit (polyVal (id : Int → Int) k) := by
  have hne := hprim.ne_zero
  have hmod : intOps.henselModulus t = p ^ t.n := by rw [← h.i]; exact intOps_models.toSemi.natPow _ _
  have hMpos : 0 < p ^ t.n := pow_pos hp _
  obtain ⟨lc, l1, l2⟩ := intOps_models.toSemi.polyLeadingCoeff_some L hne
  change lc = _ at l2
  have hlc : ¬ p ∣ lc := by rw [l2]; exact h.mf.lc
  have hlen : fs.length ≠ 0 := by
    intro e
    have := h.mf.natDegree_of_is (Finset.Subset.refl _) h.mf.lc h.mf.cong
    rw [e] at this
    simp at this
    omega
  have hcand : ∀ subset : List Bool, ∃ g,
      bzCandidate (p ^ t.n) lc (intOps.toSemiRingOps.poly.product (chosenFactors subset t.factors)) = some g ∧
      polyVal (id : Int → Int) g ≠ 0 := by
    intro subset
    obtain ⟨i, hi⟩ := chosen_lc h hp subset hlen
    refine bzCandidate_ne _ _ hMpos _ i fun hdv => ?_
    have : p ∣ lc * _ := (dvd_pow_self p h.pos.ne').trans hdv
    rcases h.mf.hp.dvd_or_dvd this with h1 | h1
    · exact hlc h1
    · exact hi h1
  have htest : ∀ (subset : List Bool) g, bzCandidate (p ^ t.n) lc (intOps.toSemiRingOps.poly.product (chosenFactors subset t.factors)) = some g →
      polyVal (id : Int → Int) g ≠ 0 →
      bzNaiveTest L (polyVal (id : Int → Int) L).natDegree lc (p ^ t.n) t.factors subset =
        if (polyVal (id : Int → Int) g).natDegree ≠ 0 ∧ (polyVal (id : Int → Int) g).natDegree ≠ (polyVal (id : Int → Int) L).natDegree then
          intOps.tryFactor L g else some none := by
    intro subset g h1 h2
    rw [bzNaiveTest, h1, Option.bind_some, bzNaiveTestPoly, intOps_models.toSemi.polyDegree_some g h2, Option.bind_some]
  have hunf : bzNaiveSearch L (polyVal (id : Int → Int) L).natDegree t =
      searchFactor (bzNaiveTest L (polyVal (id : Int → Int) L).natDegree lc (p ^ t.n) t.factors)
        (Factored.multiCartesianProduct (List.replicate t.factors.length [false, true])) := by
    rw [bzNaiveSearch, l1, Option.bind_some, hmod]
  rw [hunf]
  obtain ⟨r, r1, r2⟩ := searchFactor_spec (bzNaiveTest L (polyVal (id : Int → Int) L).natDegree lc (p ^ t.n) t.factors) _ (fun subset _ => by
    obtain ⟨g, g1, g2⟩ := hcand subset
    rw [htest subset g g1 g2]
    split
    · rcases tryFactor_spec intOps_models.toDomain L g g2 with ⟨-, e⟩ | ⟨k, e, -⟩ <;> exact ⟨_, e⟩
    · exact ⟨_, rfl⟩)
  refine ⟨r, r1, ?_⟩
  have nu : ∀ q : ℤ[X], 0 < q.natDegree → ¬ IsUnit q := fun q hq hu => by rw [natDegree_eq_zero_of_isUnit hu] at hq; omega
  cases r with
  | composite a k =>
    obtain ⟨subset, -, e⟩ := r2
    obtain ⟨g, g1, g2⟩ := hcand subset
    rw [htest subset g g1 g2] at e
    split at e
    · rename_i hdeg
      rcases tryFactor_spec intOps_models.toDomain L g g2 with ⟨-, e'⟩ | ⟨k', e', e2⟩
      · rw [e] at e'; simp at e'
      · rw [e] at e'
        simp only [Option.some.injEq, Prod.mk.injEq] at e'
        obtain ⟨rfl, rfl⟩ := e'
        have hk0 : polyVal (id : Int → Int) k ≠ 0 := fun e0 => hne (by rw [e2, e0, mul_zero])
        have h2 := natDegree_mul g2 hk0
        rw [← e2] at h2
        exact ⟨e2, nu _ (by omega), nu _ (by omega)⟩
    · cases e
  | irreducible =>
    by_cases h1 : fs.length = 1
    · exact h.mf.irreducible h1 hprim hd
    obtain ⟨m1, m2⟩ := h.mf' (by omega)
    have hdeg := m2.natDegree_of_is (Finset.Subset.refl _) m2.lc m2.cong
    have hd2 : 2 ≤ (polyVal (id : Int → Int) L).natDegree := by
      rw [hdeg]
      calc 2 ≤ ∑ i ∈ Finset.range t.factors.length, 1 := by simp; omega
        _ ≤ _ := Finset.sum_le_sum fun i hi => m2.pos hi
    have hctx : BzCtx0 ⟨L, lc, (polyVal (id : Int → Int) L).natDegree, p ^ t.n, t.factors⟩ p t.n :=
      { ppos := hp
        modulus := rfl
        lc := l2
        mf := m2
        prim := hprim
        two := by rw [m1]; omega
        small := small_of_big hd2 (le_trans (by exact_mod_cast hM) h.big) }
    refine ⟨nu _ hd, fun {G H} e => ?_⟩
    by_contra hcon
    push Not at hcon
    obtain ⟨hGu, hHu⟩ := hcon
    have hG0 : G ≠ 0 := fun e0 => hne (by rw [e, e0, zero_mul])
    have hH0 : H ≠ 0 := fun e0 => hne (by rw [e, e0, mul_zero])
    have hGd : 0 < G.natDegree := Nat.pos_of_ne_zero fun e0 => hGu (isUnit_of_prim_natDegree (isPrim_of_dvd hprim ⟨H, e⟩) e0)
    have hHd : 0 < H.natDegree := Nat.pos_of_ne_zero fun e0 => hHu (isUnit_of_prim_natDegree (isPrim_of_dvd hprim ⟨G, by rw [e, mul_comm]⟩) e0)
    have hFd : (polyVal (id : Int → Int) L).natDegree = G.natDegree + H.natDegree := by rw [e, natDegree_mul hG0 hH0]
    obtain ⟨S, hS, hi⟩ := m2.split e
    have hSd := m2.natDegree_of_is hS (lc_of_mul e m2.lc).1 hi
    have hcard : S.card < t.factors.length := by
      by_contra hc
      have hS' : S = Finset.range t.factors.length := Finset.eq_of_subset_of_card_le hS (by rw [Finset.card_range]; omega)
      rw [hS', ← hdeg] at hSd
      omega
    obtain ⟨subset, s1, s2⟩ := exists_chosen S _ hS
    have hprod : polyVal (id : Int → Int) (intOps.toSemiRingOps.poly.product (chosenFactors subset t.factors)) =
        ((chosenFactors subset t.factors).map (polyVal (id : Int → Int))).prod := intOps_models.toSemi.poly.product _
    rw [chosen_prod, s2] at hprod
    obtain ⟨g, g1, g2, g3, g4, -, g6⟩ := hctx.candidate S hS hcard _ (by rw [hprod]; exact .refl _ _)
    have hass := g6 G ⟨H, e⟩ hi
    have hgd : (polyVal (id : Int → Int) g).natDegree = G.natDegree := by rw [g4, hSd]
    have hcon := r2 subset s1
    rw [htest subset g g1 g2.ne_zero, if_pos ⟨by omega, by omega⟩] at hcon
    rcases tryFactor_spec intOps_models.toDomain L g g2.ne_zero with ⟨e', -⟩ | ⟨k', e', -⟩
    · exact e' (hass.symm.dvd.trans ⟨H, e⟩)
    · rw [hcon] at e'; cases e'

end

section
variable {factor : Int → Option (Option (Factored Int))} (hf : (intUfd factor).Models (id : Int → Int))
  {rand : Nat → Nat → Int} (hr : ∀ p : ℕ, p.Prime → FairStream (fun a : Int => (a : ZMod (p : ℤ).natAbs)) (rand p))
include hf

/-- for a primitive polynomial the naive version treats primes like the other one -/
theorem bzNaiveAtPrime_eq (rand : Nat → Int) (L : List Int) (M p : Nat) (hp : p.Prime) (hprim : (polyVal (id : Int → Int) L).IsPrimitive) :
    bzNaiveAtPrime factor rand L (polyVal (id : Int → Int) L).natDegree M p = bzAtPrime factor rand L (polyVal (id : Int → Int) L).natDegree M p := by
  have hpi : Prime (p : ℤ) := Nat.prime_iff_prime_int.1 hp
  have hirr : Irreducible (id (p : ℤ)) := hpi.irreducible
  have hq := (intOps_models.quotientField p hirr).1
  have hmap : polyVal (fun a : ℤ => Ideal.Quotient.mk (Ideal.span {id (p : ℤ)}) (id a)) L = redMod p (polyVal (id : Int → Int) L) :=
    polyVal_comp (Ideal.Quotient.mk (Ideal.span {(p : ℤ)})) (id : Int → Int) L
  have hne : redMod p (polyVal (id : Int → Int) L) ≠ 0 := by
    intro h0
    refine hpi.not_unit (hprim p ?_)
    rw [C_dvd_iff_dvd_coeff]
    intro i
    have := congrArg (fun q => coeff q i) h0
    simp only [coeff_map, coeff_zero] at this
    exact Ideal.mem_span_singleton.1 (Ideal.Quotient.eq_zero_iff_mem.1 this)
  have hnf := intOps_models.newField factor p (prime_isIrreducibleBy hf hp) hpi.ne_zero
  rw [bzNaiveAtPrime, bzAtPrime, hnf]
  simp only [Option.bind_eq_bind, Option.bind_some]
  rw [hq.toRing.toSemi.polyDegree_some L (by rw [hmap]; exact hne)]
  simp only [Option.bind_some, Option.some.injEq]

include hr

theorem bzNaiveLoop_spec (L : List Int) (M : ℕ) (hprim : (polyVal (id : Int → Int) L).IsPrimitive)
    (hd : 0 < (polyVal (id : Int → Int) L).natDegree) (hs : Squarefree (polyVal (id : Int → Int) L))
    (hM : 2 * (l1 (polyVal (id : Int → Int) L) * (polyVal (id : Int → Int) L).natDegree.choose ((polyVal (id : Int → Int) L).natDegree / 2)) ≤ M)
    (gen : Natural.PrimeGenerator) (hg : Natural.PGInv gen) :
    ∃ r, bzNaiveLoop factor rand L (polyVal (id : Int → Int) L).natDegree M gen = some r ∧
      match r with
      | .irreducible => Irreducible (polyVal (id : Int → Int) L)
      | .composite g k => polyVal (id : Int → Int) L = polyVal (id : Int → Int) g * polyVal (id : Int → Int) k ∧
        ¬ IsUnit (polyVal (id : Int → Int) g) ∧ ¬ IsUnit (polyVal (id : Int → Int) k) := by
  obtain ⟨N, hN, hgood⟩ := exists_good hprim hs
  obtain ⟨k, hk⟩ : ∃ k, N.natAbs < gen.n + k := ⟨N.natAbs + 1, by omega⟩
  induction k generalizing gen with
  | zero =>
    obtain ⟨p, g', n1, n2, n3, n4, n5, -⟩ := Natural.pg_next hg
    rw [bzNaiveLoop, n1]
    simp only [Option.bind_eq_bind, Option.bind_some, bzNaiveAtPrime_eq hf (rand p) L M p n4 hprim]
    rcases bzAtPrime_spec hf (rand p) L M p n4 (hr p n4) hd with ⟨a1, a2⟩ | ⟨t, fs, a1, a2⟩
    · exfalso
      have := hgood p (Nat.prime_iff_prime_int.1 n4) (fun hdv => by
        have := Int.natAbs_le_of_dvd_ne_zero hdv hN
        simp at this
        omega)
      rcases a2 with a2 | a2
      · exact this.1 a2
      · exact a2 this.2
    · obtain ⟨r, b2, b3⟩ := bzNaiveSearch_spec a2 (by exact_mod_cast n4.pos) hprim hd hM
      refine ⟨r, ?_, b3⟩
      simp only [a1, b2, Option.bind_some]
  | succ k ih =>
    obtain ⟨p, g', n1, n2, n3, n4, n5, -⟩ := Natural.pg_next hg
    rw [bzNaiveLoop, n1]
    simp only [Option.bind_eq_bind, Option.bind_some, bzNaiveAtPrime_eq hf (rand p) L M p n4 hprim]
    rcases bzAtPrime_spec hf (rand p) L M p n4 (hr p n4) hd with ⟨a1, -⟩ | ⟨t, fs, a1, a2⟩
    · obtain ⟨r, b2, b3⟩ := ih g' n2 (by omega)
      refine ⟨r, ?_, b3⟩
      simp only [a1, b2, Option.bind_some]
    · obtain ⟨r, b2, b3⟩ := bzNaiveSearch_spec a2 (by exact_mod_cast n4.pos) hprim hd hM
      refine ⟨r, ?_, b3⟩
      simp only [a1, b2, Option.bind_some]

/-- The naive search for a factor is right on primitive squarefree polynomials that are not constant. -/
theorem bzNaiveFindFactor_spec (L : List Int) (hprim : (polyVal (id : Int → Int) L).IsPrimitive) (hs : Squarefree (polyVal (id : Int → Int) L))
    (hu : ¬ IsUnit (polyVal (id : Int → Int) L)) :
    ∃ r, bzNaiveFindFactor factor rand L = some r ∧
      match r with
      | .irreducible => Irreducible (polyVal (id : Int → Int) L)
      | .composite g k => polyVal (id : Int → Int) L = polyVal (id : Int → Int) g * polyVal (id : Int → Int) k ∧
        ¬ IsUnit (polyVal (id : Int → Int) g) ∧ ¬ IsUnit (polyVal (id : Int → Int) k) := by
  have hd : 0 < (polyVal (id : Int → Int) L).natDegree := Nat.pos_of_ne_zero fun e => hu (isUnit_of_prim_natDegree hprim e)
  have h1 : ((polyVal (id : Int → Int) L).natDegree != 0) = true := by simpa using hd.ne'
  rw [bzNaiveFindFactor, mignotteBound_some L hprim.ne_zero, intOps_models.toSemi.polyDegree_some L hprim.ne_zero]
  simp only [Option.bind_eq_bind, Option.bind_some, assertThat, h1, if_true]
  split
  · rename_i hd1
    refine ⟨_, rfl, ⟨hu, fun {G H} e => ?_⟩⟩
    have hG0 : G ≠ 0 := fun e0 => hprim.ne_zero (by rw [e, e0, zero_mul])
    have hH0 : H ≠ 0 := fun e0 => hprim.ne_zero (by rw [e, e0, mul_zero])
    rw [e, natDegree_mul hG0 hH0] at hd1
    rcases (by omega : G.natDegree = 0 ∨ H.natDegree = 0) with h0 | h0
    · exact Or.inl (isUnit_of_prim_natDegree (isPrim_of_dvd hprim ⟨H, e⟩) h0)
    · exact Or.inr (isUnit_of_prim_natDegree (isPrim_of_dvd hprim ⟨G, by rw [e, mul_comm]⟩) h0)
  · exact bzNaiveLoop_spec hf hr L _ hprim hd hs le_rfl _ Natural.pgInv_new

/-- The squarefree step of the naive version is right. -/
theorem bzNaiveSqfree_spec : FactorsPrimSqfree (intUfd factor) (id : Int → Int)
    (factorizeByFindFactor intOps.toFavOps.poly (bzNaiveFindFactor factor rand)) := by
  intro a ha hs
  exact factorizeByFindFactor_specOn intOps_models.toFav.poly (fun q => q.IsPrimitive ∧ Squarefree q)
    (fun x y hxy => ⟨⟨isPrim_of_dvd hxy.1 ⟨y, rfl⟩, hxy.2.squarefree_of_dvd ⟨y, rfl⟩⟩,
      ⟨isPrim_of_dvd hxy.1 ⟨x, mul_comm _ _⟩, hxy.2.squarefree_of_dvd ⟨x, mul_comm _ _⟩⟩⟩)
    (bzNaiveFindFactor factor rand) (fun e _ hq hu => by
      obtain ⟨r, r1, r2⟩ := bzNaiveFindFactor_spec hf hr e hq.1 hq.2 hu
      refine ⟨r, r1, ?_⟩
      cases r <;> exact r2) a ha.ne_zero ⟨ha, hs⟩

end

end Verif.Rings
