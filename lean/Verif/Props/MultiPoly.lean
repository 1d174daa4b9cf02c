import Verif.Proofs.MultiPolyDiv
import Verif.Proofs.MultiPolyOrder
import Verif.Props.Structure

/-!
# C106–C113: polynomials in several variables

`mpVal v p` is the polynomial in `MvPolynomial ℕ R` that the vector of terms `p` denotes (the sum of its terms). Throughout
`H : HashOrder` is the unspecified order in which hash maps are visited.
-/

namespace Verif.Rings

open MvPolynomial

/-! ## C106: arithmetic and equality -/

/-- C106: the ring operations compute the ring operations of `MvPolynomial ℕ R`, for any order of the hash maps and for any
vectors of terms, in order or not, with zero terms or without. -/
theorem C106_arithmetic {α R : Type} [CommRing R] {S : RingOps α} {v : α → R} (h : S.Models v) (H : HashOrder) (p q : MPoly α) (c : α)
    (x k : ℕ) :
    mpVal v (S.multi H).zero = 0 ∧ mpVal v (S.multi H).one = 1 ∧
    mpVal v ((S.multi H).add p q) = mpVal v p + mpVal v q ∧
    mpVal v ((S.multi H).mul p q) = mpVal v p * mpVal v q ∧
    mpVal v ((S.multi H).neg p) = -mpVal v p ∧
    mpVal v (MPoly.constant c) = C (v c) ∧
    mpVal v (S.mpVar x) = X x ∧
    mpVal v (S.mpVarPow x k) = X x ^ k ∧
    mpVal v (S.mpReduce p) = mpVal v p := by
  have hpow : ∀ k, mpVal v (S.mpVarPow x k) = X x ^ k := by
    intro k
    rw [SemiRingOps.mpVarPow, mpVal_single, monoVal_new, h.toSemi.one, X_pow_eq_monomial]
    simp [monoVal]
  refine ⟨mpVal_nil v, ?_, h.toSemi.mpAdd_val p q, h.toSemi.mpMul_val H p q, h.mpNeg_val H p, ?_, ?_, hpow k, h.toSemi.mpReduce_val p⟩
  · change mpVal v [(S.one, Mono.one)] = 1
    rw [mpVal_single, h.toSemi.one, monoVal_one]; rfl
  · rw [MPoly.constant, mpVal_single, monoVal_one]; rfl
  · rw [SemiRingOps.mpVar, hpow, pow_one]

/-- C106: `==` on well-formed polynomials is equality of the polynomials they denote. -/
theorem C106_equal {α R : Type} [CommSemiring R] {S : SemiRingOps α} {v : α → R} (h : S.Models v) (H : HashOrder) {p q : MPoly α}
    (hp : p.WF) (hq : q.WF) : (S.multi H).equal p q = true ↔ mpVal v p = mpVal v q :=
  h.mpEqual_iff hp hq

/-- C106: sums and products of well-formed polynomials, negatives, constants, variables and reductions are well-formed. Sums, products and
reductions have no zero terms and their terms are in lexicographic order. -/
theorem C106_well_formed {α R : Type} [CommRing R] {S : RingOps α} {v : α → R} (h : S.Models v) (H : HashOrder) {p q : MPoly α}
    (hp : p.WF) (hq : q.WF) (c : α) (x k : ℕ) :
    (MPoly.WF ((S.multi H).add p q) ∧ MPoly.Reduced v ((S.multi H).add p q) ∧ MPoly.Sorted ((S.multi H).add p q)) ∧
    (MPoly.WF ((S.multi H).mul p q) ∧ MPoly.Reduced v ((S.multi H).mul p q) ∧ MPoly.Sorted ((S.multi H).mul p q)) ∧
    (MPoly.WF (S.mpReduce p) ∧ MPoly.Reduced v (S.mpReduce p) ∧ MPoly.Sorted (S.mpReduce p)) ∧
    MPoly.WF ((S.multi H).neg p) ∧ MPoly.WF (MPoly.constant c) ∧ MPoly.WF (S.mpVarPow x k) ∧
    MPoly.WF (S.multi H).zero ∧ MPoly.WF (S.multi H).one :=
  ⟨⟨h.toSemi.mpAdd_wf hp hq, h.toSemi.mpAdd_reduced p q, h.toSemi.mpAdd_sorted hp hq⟩,
    ⟨h.toSemi.mpMul_wf H p q, h.toSemi.mpMul_reduced H p q, h.toSemi.mpMul_sorted H p q⟩,
    ⟨S.mpReduce_wf hp, h.toSemi.mpReduce_reduced p, S.mpReduce_sorted hp⟩,
    S.mpNeg_wf H hp, MPoly.single_wf Mono.one_wf, MPoly.single_wf (Mono.new_wf (by simp)), MPoly.nil_wf, MPoly.single_wf Mono.one_wf⟩

/-- C106: the order in which hash maps are visited does not show: two products of the same polynomials have the same monomials in the same
order, with equal coefficients. -/
theorem C106_hash_order {α R : Type} [CommRing R] {S : RingOps α} {v : α → R} (h : S.Models v) (H H' : HashOrder) (p q : MPoly α) :
    ((S.multi H).mul p q).map Prod.snd = ((S.multi H').mul p q).map Prod.snd ∧
      ((S.multi H).mul p q).map (fun t => v t.1) = ((S.multi H').mul p q).map fun t => v t.1 :=
  canon_ext (h.toSemi.mpMul_wf H p q) (h.toSemi.mpMul_wf H' p q) (h.toSemi.mpMul_reduced H p q) (h.toSemi.mpMul_reduced H' p q)
    (h.toSemi.mpMul_sorted H p q) (h.toSemi.mpMul_sorted H' p q)
    ((h.toSemi.mpMul_val H p q).trans (h.toSemi.mpMul_val H' p q).symm)

/-- C106: every polynomial in `MvPolynomial ℕ R` is denoted by a well-formed vector of terms without zero terms. -/
theorem C106_surjective {α R : Type} [CommSemiring R] {S : SemiRingOps α} {v : α → R} (h : S.Models v) (f : MvPolynomial ℕ R) :
    ∃ p : MPoly α, p.WF ∧ p.Reduced v ∧ p.Sorted ∧ mpVal v p = f := h.exists_mp f

/-- the polynomial `x + y` over the integers, with `x` and `y` the variables `0` and `1` -/
def exXplusY : MPoly Int := [(1, [(0, 1)]), (1, [(1, 1)])]
/-- the polynomial `x - y` over the integers -/
def exXminusY : MPoly Int := [(1, [(0, 1)]), (-1, [(1, 1)])]

theorem exXplusY_wf : exXplusY.WF := ⟨by unfold exXplusY Mono.WF; decide, by unfold exXplusY; decide⟩
theorem exXminusY_wf : exXminusY.WF := ⟨by unfold exXminusY Mono.WF; decide, by unfold exXminusY; decide⟩

example : (intOps.toRingOps.multi .insertion).mul exXplusY exXminusY = [(1, [(0, 2)]), (-1, [(1, 2)])] := by decide
example : (intOps.toRingOps.multi .reversed).mul exXplusY exXminusY = [(1, [(0, 2)]), (-1, [(1, 2)])] := by decide
example : (intOps.toRingOps.multi .insertion).add exXplusY exXminusY = [(2, [(0, 1)])] := by decide

/-! ## C107: evaluation -/

/-- C107: `evaluate` returns if and only if every variable that occurs has a value, and then it returns the value of the polynomial at
these values (whatever is put for the other variables). -/
theorem C107_evaluate {α R : Type} [CommSemiring R] {S : SemiRingOps α} {v : α → R} (h : S.Models v) (p : MPoly α)
    (values : Nat → Option α) :
    ((∃ y, S.mpEvaluate p values = some y) ↔ ∀ x ∈ p.freeVars, values x ≠ none) ∧
    ∀ y, S.mpEvaluate p values = some y → ∀ f : ℕ → R, (∀ x z, values x = some z → f x = v z) → v y = eval f (mpVal v p) := by
  have hcase : ∀ f : ℕ → R, (∀ x z, values x = some z → f x = v z) → (∀ x ∈ p.freeVars, values x ≠ none) →
      ∃ y, S.mpEvaluate p values = some y ∧ v y = eval f (mpVal v p) := fun f hf hp => h.mpEvaluate_ok values f hf p hp
  have hnone : ∀ y, S.mpEvaluate p values = some y → ∀ x ∈ p.freeVars, values x ≠ none := by
    intro y hy x hx hv
    rw [S.mpEvaluate_none values p hx hv] at hy
    cases hy
  refine ⟨⟨fun ⟨y, hy⟩ => hnone y hy, fun hp => ?_⟩, ?_⟩
  · obtain ⟨y, hy, _⟩ := hcase (fun x => ((values x).map v).getD 0) (fun x z hz => by rw [hz]; rfl) hp
    exact ⟨y, hy⟩
  · intro y hy f hf
    obtain ⟨y', hy', hv⟩ := hcase f hf (hnone y hy)
    rw [hy] at hy'
    cases hy'
    exact hv

example : intOps.mpEvaluate exXminusY (fun x => some (if x = 0 then 7 else 3)) = some 4 := by decide
example : intOps.mpEvaluate exXminusY (fun x => if x = 0 then some 7 else none) = none := by decide

/-! ## C108: degree, variables, constants, parts -/

/-- C108: for a well-formed polynomial without zero terms, `free_vars` are the variables of the polynomial; `degree` is `None` exactly for zero
and otherwise the total degree; `as_constant` recognises the constants. -/
theorem C108_read {α R : Type} [CommSemiring R] {S : SemiRingOps α} {v : α → R} (h : S.Models v) {p : MPoly α} (hp : p.WF)
    (hr : p.Reduced v) :
    (∀ x, x ∈ p.freeVars ↔ x ∈ (mpVal v p).vars) ∧
    (p.degree = none ↔ mpVal v p = 0) ∧
    (∀ d, p.degree = some d → (mpVal v p).totalDegree = d) ∧
    (∀ c, S.mpAsConstant p = some c → mpVal v p = C (v c)) ∧
    (S.mpAsConstant p = none → ∀ r, mpVal v p ≠ C r) := by
  refine ⟨mem_freeVars v hp hr, ?_, fun d hd => MPoly.degree_eq v hp hr hd, ?_, ?_⟩
  · rw [MPoly.degree_none, mpVal_eq_zero_iff v hp hr]
  · intro c hc
    match p, hc with
    | [], hc =>
      simp only [SemiRingOps.mpAsConstant, Option.some.injEq] at hc
      rw [← hc, h.zero, mpVal_nil, C_0]
    | [(d, m)], hc =>
      simp only [SemiRingOps.mpAsConstant] at hc
      split_ifs at hc with hm
      simp only [Option.some.injEq] at hc
      rw [← hc, hm, mpVal_single, monoVal_one]; rfl
    | _ :: _ :: _, hc => simp [SemiRingOps.mpAsConstant] at hc
  · intro hn r hC
    have hzero : ∀ t ∈ p, t.2 = [] := by
      intro t ht
      have h1 : coeff (monoVal t.2) (mpVal v p) ≠ 0 := by rw [coeff_mpVal_of_mem v hp ht]; exact hr t ht
      rw [hC, coeff_C] at h1
      split_ifs at h1 with h0
      · exact (monoVal_eq_zero (hp.mono t ht)).1 h0.symm
      · exact (h1 rfl).elim
    match p, hn, hzero, hp with
    | [], hn, _, _ => simp [SemiRingOps.mpAsConstant] at hn
    | [(d, m)], hn, hz, _ =>
      have : m = [] := hz (d, m) (by simp)
      simp [SemiRingOps.mpAsConstant, this, Mono.one] at hn
    | s :: t :: _, _, hz, hp =>
      have h1 := hz s (by simp)
      have h2 := hz t (by simp)
      have := hp.nodup
      simp [h1, h2] at this

/-- C108: `split_by_degree` lists the homogeneous components by degree, each degree at most once and no empty part; the parts add up to the
polynomial, and every degree of a term occurs. -/
theorem C108_split_by_degree {α R : Type} [CommSemiring R] (v : α → R) (H : HashOrder) (p : MPoly α) :
    ((p.splitByDegree H).map Prod.fst).Nodup ∧
    (∀ e ∈ p.splitByDegree H, mpVal v e.2 = homogeneousComponent e.1 (mpVal v p) ∧ e.2 ≠ [] ∧ e.2.Sublist p) ∧
    (∀ d, homogeneousComponent d (mpVal v p) ≠ 0 → d ∈ (p.splitByDegree H).map Prod.fst) ∧
    ((p.splitByDegree H).map fun e => mpVal v e.2).sum = mpVal v p := by
  have h := splitByDegree_ok H p
  refine ⟨h.nodup, fun e he => ?_, fun d hd => ?_, splitByDegree_sum v H p⟩
  · obtain ⟨h1, h2⟩ := h.part e he
    exact ⟨by rw [h1, mpVal_filter_degree], h2, by rw [h1]; exact List.filter_sublist⟩
  · rw [← mpVal_filter_degree] at hd
    by_contra hn
    apply hd
    have : p.filter (fun t => decide (Mono.degree t.2 = d)) = [] := by
      rw [List.filter_eq_nil_iff]
      intro s hs hse
      exact hn ((of_decide_eq_true hse) ▸ h.all s hs)
    rw [this, mpVal_nil]

/-- C108: `evaluate_var_zero` substitutes zero for the variable; `has_all_vars_parts` keeps exactly the terms in which all given variables
occur. -/
theorem C108_parts {α R : Type} [CommSemiring R] (v : α → R) {p : MPoly α} (hp : p.WF) (x : ℕ) (xs : List ℕ) :
    mpVal v (p.evaluateVarZero x) = aeval (fun i => if i = x then (0 : MvPolynomial ℕ R) else X i) (mpVal v p) ∧
    ∀ s, coeff s (mpVal v (p.hasAllVarsParts xs)) = if ∀ y ∈ xs, s y ≠ 0 then coeff s (mpVal v p) else 0 := by
  refine ⟨mpVal_evaluateVarZero v hp.mono x, fun s => ?_⟩
  classical
  exact coeff_mpVal_filter v (fun s => ∀ y ∈ xs, s y ≠ 0) _ p (fun t ht => by
    simp [Mono.getVarPow_eq (hp.mono t ht), Nat.pos_iff_ne_zero]) s

/-- C108, violated: `degree` and `free_vars` see zero terms, so two polynomials that are `==` have different degrees and different variables:
`constant(0)` has degree `0` and the zero polynomial has none; `0·x`, which `apply_map` can make of `x`, has the variable `x`. -/
theorem C108_zero_terms_wrong :
    intOps.mpEqual (MPoly.constant 0) [] = true ∧ MPoly.degree (MPoly.constant (0 : Int)) = some 0 ∧ MPoly.degree ([] : MPoly Int) = none ∧
    intOps.mpEqual ((intOps.mpVar 0).applyMap fun c => 2 * c - 2) [] = true ∧
    ((intOps.mpVar 0).applyMap fun c => 2 * c - 2).freeVars = [0] := by decide

example : exXplusY.degree = some 1 ∧ exXplusY.freeVars = [0, 1] := by decide
example : MPoly.splitByDegree .insertion ([(1, [(0, 2)]), (3, [(0, 1), (1, 1)]), (5, [(1, 1)]), (7, [])] : MPoly Int) =
    [(2, [(1, [(0, 2)]), (3, [(0, 1), (1, 1)])]), (1, [(5, [(1, 1)])]), (0, [(7, [])])] := by decide

/-! ## C109: homogenization -/

/-- C109: homogenizing with a variable that does not occur returns a homogeneous polynomial of the same degree which gives back the polynomial
when the variable is set to `1`. (For a polynomial without zero terms the degree is the total degree.) -/
theorem C109_homogenize {α R : Type} [CommSemiring R] {S : SemiRingOps α} {v : α → R} (h : S.Models v) {p : MPoly α} (hp : p.WF)
    (hr : p.Reduced v) {x : ℕ} (hx : x ∉ p.freeVars) :
    ∃ q, S.mpHomogenize p x = some q ∧ q.WF ∧ (mpVal v q).IsHomogeneous (mpVal v p).totalDegree ∧
      aeval (fun i => if i = x then (1 : MvPolynomial ℕ R) else X i) (mpVal v q) = mpVal v p := by
  by_cases h0 : mpVal v p = 0
  · refine ⟨[], ?_, MPoly.nil_wf, ?_, by rw [mpVal_nil, h0, map_zero]⟩
    · rw [SemiRingOps.mpHomogenize, if_pos ((h.mpEqual_iff hp MPoly.nil_wf).2 (by rw [h0, mpVal_nil]))]
    · rw [mpVal_nil]; exact isHomogeneous_zero _ _ _
  · obtain ⟨d, hd, he⟩ := h.mpHomogenize_eq hp hx h0
    refine ⟨_, he, MPoly.wf_perm (MPoly.new_perm _) (homTerms_wf hp hx d), ?_, ?_⟩
    · rw [mpVal_new, MPoly.degree_eq v hp hr hd]
      exact homTerms_homogeneous v (MPoly.degree_le_raw hd) x
    · rw [mpVal_new]
      exact homTerms_setOne v hx d

/-- C109, violated: homogenizing with a variable that occurs panics (a debug assertion; without it the result would have the variable twice in
a monomial): `x + y²` with the variable `x`. -/
theorem C109_variable_occurs_wrong : intOps.mpHomogenize [(1, [(0, 1)]), (1, [(1, 2)])] 0 = none := by decide

example : intOps.mpHomogenize [(1, [(0, 1)]), (1, [(1, 2)]), (5, [])] 2 = some [(1, [(0, 1), (2, 1)]), (1, [(1, 2)]), (5, [(2, 2)])] := by decide

/-! ## C110: expansion in one variable -/

/-- C110: `expand` writes the polynomial as a polynomial in `x` whose coefficients do not contain `x` (nor any variable that does not occur): putting
`x` for the polynomial variable gives the polynomial back. -/
theorem C110_expand {α R : Type} [CommSemiring R] {S : SemiRingOps α} {v : α → R} (h : S.Models v) {p : MPoly α} (hp : p.WF) (x : ℕ) :
    (polyVal (mpVal v) (S.mpExpand p x)).eval (X x) = mpVal v p ∧
    ∀ c ∈ S.mpExpand p x, c.WF ∧ c.Reduced v ∧ x ∉ (mpVal v c).vars ∧ ∀ y ∈ (mpVal v c).vars, y ∈ p.freeVars := by
  refine ⟨h.mpExpand_val x hp.mono, fun c hc => ?_⟩
  obtain ⟨h1, h2, h3⟩ := h.mpExpand_coeffs x hp.mono c hc
  rw [mem_supported] at h3
  exact ⟨h1, h2, fun hx => (h3 hx).1 rfl, fun y hy => (h3 hy).2⟩

example : intOps.mpExpand [(1, [(0, 2), (1, 1)]), (3, [(0, 2)]), (5, [(1, 1)])] 0 =
    [[(5, [(1, 1)])], [], [(1, [(1, 1)]), (3, [])]] := by decide

/-! ## C111: division -/

/-- C111: over an integral domain, division of well-formed polynomials without zero terms returns, for any order of the hash maps (which picks the
main variable): the exact quotient if the divisor divides, and the right error if it is zero or does not divide. -/
theorem C111_division {α R : Type} [CommRing R] {S : DomainOps α} {v : α → R} (h : S.Models v) (H : HashOrder) {a b : MPoly α}
    (ha : a.WF) (hb : b.WF) (har : a.Reduced v) (hbr : b.Reduced v) :
    (mpVal v b = 0 → (S.multi H).div a b = some (.error .divideByZero)) ∧
    (mpVal v b ≠ 0 → mpVal v b ∣ mpVal v a → ∃ q, (S.multi H).div a b = some (.ok q) ∧ q.WF ∧ q.Reduced v ∧
      mpVal v a = mpVal v q * mpVal v b) ∧
    (mpVal v b ≠ 0 → ¬ mpVal v b ∣ mpVal v a → (S.multi H).div a b = some (.error .notDivisible)) := by
  have hs := mpDiv_spec h H ha hb har hbr
  have hd : (S.multi H).div a b = S.mpDiv H a b := rfl
  rw [hd]
  rcases hs with ⟨h1, h2⟩ | ⟨h1, q, h2, h3, h4, h5⟩ | ⟨h1, h2, h3⟩
  · exact ⟨fun _ => h2, fun h0 => (h0 h1).elim, fun h0 => (h0 h1).elim⟩
  · exact ⟨fun h0 => (h1 h0).elim, fun _ _ => ⟨q, h2, h3, h4, h5⟩, fun _ hn => (hn ⟨mpVal v q, by rw [h5, mul_comm]⟩).elim⟩
  · exact ⟨fun h0 => (h1 h0).elim, fun _ hd => (h2 hd).elim, fun _ _ => h3⟩

/-- C111: the recursion of `div` is no deeper than the number of variables plus one: a larger depth changes nothing about the result being right. -/
theorem C111_depth {α R : Type} [CommRing R] {S : DomainOps α} {v : α → R} (h : S.Models v) (H : HashOrder) {a b : MPoly α}
    (ha : a.WF) (hb : b.WF) (har : a.Reduced v) (hbr : b.Reduced v) (n : ℕ) (hn : (a.freeVars ++ b.freeVars).dedup.length < n) :
    ∃ r, S.mpDivDepth H n a b = some r := by
  rcases mpDivDepth_spec h H n ha hb har hbr hn with ⟨_, h2⟩ | ⟨_, q, h2, _⟩ | ⟨_, _, h3⟩
  · exact ⟨_, h2⟩
  · exact ⟨_, h2⟩
  · exact ⟨_, h3⟩

/-- C111, violated with zero terms: dividing a constant by `constant(0)` panics instead of returning `DivideByZero`. -/
theorem C111_constant_zero_wrong :
    (intOps.multi .insertion).div (MPoly.constant 1) (MPoly.constant 0) = none ∧
    (intOps.multi .insertion).div (MPoly.constant 1) (intOps.multi .insertion).zero = some (.error .divideByZero) := by decide

/-- C111, violated with zero terms: zero divided by `constant(0)` is `Ok(0)` instead of `DivideByZero`. -/
theorem C111_zero_by_zero_wrong :
    (intOps.multi .insertion).div (intOps.multi .insertion).zero (MPoly.constant 0) = some (.ok []) ∧
    (intOps.multi .insertion).equal (MPoly.constant 0) (intOps.multi .insertion).zero = true := by decide

/-! ## C112: renaming variables -/

/-- C112: `apply_map_vars` returns if and only if the map has a value for every variable that occurs; the result denotes the polynomial with the variables
renamed; if the map is injective on the variables that occur, the result is well-formed (so that `==` works on it). -/
theorem C112_apply_map_vars {α R : Type} [CommSemiring R] (v : α → R) {p : MPoly α} (hp : p.WF) (f : Nat → Option Nat) :
    ((∃ q, p.applyMapVars f = some q) ↔ ∀ x ∈ p.freeVars, f x ≠ none) ∧
    ∀ q, p.applyMapVars f = some q → ∀ g : ℕ → ℕ, (∀ x ∈ p.freeVars, f x = some (g x)) → mpVal v q = rename g (mpVal v p) ∧
      (Set.InjOn g {x | x ∈ p.freeVars} → q.WF) := by
  have hnone : ∀ q, p.applyMapVars f = some q → ∀ x ∈ p.freeVars, f x ≠ none := by
    intro q hq x hx hf
    rw [MPoly.applyMapVars_none f p hx hf] at hq
    cases hq
  refine ⟨⟨fun ⟨q, hq⟩ => hnone q hq, fun hf => ?_⟩, ?_⟩
  · exact ⟨_, MPoly.applyMapVars_some f (fun x => (f x).getD 0) p fun x hx => by
      cases hx' : f x with
      | none => exact (hf x hx hx').elim
      | some y => rfl⟩
  · intro q hq g hg
    rw [MPoly.applyMapVars_some f g p hg] at hq
    cases hq
    exact ⟨mpVal_applyMapVars v g p, applyMapVars_wf g hp⟩

/-- C112, violated for maps that are not injective: renaming both `x` and `y` to `z` in `x y` and in `x + y` gives polynomials that are not `==` to `z²` and to
`2 z`, although they denote them. -/
theorem C112_not_injective_wrong :
    (∃ q, MPoly.applyMapVars (fun _ => some 2) ([(1, [(0, 1), (1, 1)])] : MPoly Int) = some q ∧
      intOps.mpEqual q (intOps.mpVarPow 2 2) = false ∧ mpVal (id : Int → Int) q = mpVal id (intOps.mpVarPow 2 2)) ∧
    ∃ q, exXplusY.applyMapVars (fun _ => some 2) = some q ∧
      intOps.mpEqual q [(2, [(2, 1)])] = false ∧ mpVal (id : Int → Int) q = mpVal id [(2, [(2, 1)])] := by
  refine ⟨⟨[(1, [(2, 1), (2, 1)])], by decide, by decide, ?_⟩, ⟨[(1, [(2, 1)]), (1, [(2, 1)])], by decide, by decide, ?_⟩⟩
  · have : monoVal [(2, 1), (2, 1)] = monoVal (Mono.new [(2, 2)]) := by
      rw [monoVal_new]
      simp only [monoVal, List.map_cons, List.map_nil, List.sum_cons, List.sum_nil, add_zero, ← Finsupp.single_add]
    rw [SemiRingOps.mpVarPow, mpVal_single, mpVal_single, this]; rfl
  · rw [mpVal_cons, mpVal_single, mpVal_single, ← map_add]; rfl

example : exXminusY.applyMapVars (fun x => if x = 0 then some 1 else some 0) = some [(1, [(1, 1)]), (-1, [(0, 1)])] := by decide

/-! ## C113: monomial orders -/

/-- C113: `lexicographic_order` compares exponents: `a` comes before `b` exactly when, at the first variable (in order of creation) where they differ, `a` has the
larger exponent. It is a strict total order, multiplication by a monomial respects it, and `1` comes last. -/
theorem C113_lexicographic (H : HashOrder) {a b c : Mono} (ha : a.WF) (hb : b.WF) :
    (Mono.lexCmp a b = .lt ↔ ∃ x, (∀ y < x, monoVal a y = monoVal b y) ∧ monoVal b x < monoVal a x) ∧
    (Mono.lexCmp a b = .eq ↔ a = b) ∧
    (Mono.lexCmp a b).swap = Mono.lexCmp b a ∧
    (Mono.lexCmp a b = .lt → Mono.lexCmp b c = .lt → Mono.lexCmp a c = .lt) ∧
    Mono.lexCmp (Mono.mul H a c) (Mono.mul H b c) = Mono.lexCmp a b ∧
    (a ≠ Mono.one → Mono.lexCmp a Mono.one = .lt) :=
  ⟨lexCmp_lt_iff ha hb, lexCmp_eq_iff a b, lexCmp_swap a b, lexCmp_lt_trans, lexCmp_mul H c ha hb, lexCmp_one⟩

/-- C113: `graded_lexicographic_order` puts the higher degree first and breaks ties lexicographically; it is a strict total order, multiplication respects it
and `1` comes last. -/
theorem C113_graded (H : HashOrder) {a b c : Mono} (ha : a.WF) (hb : b.WF) :
    (Mono.gradedCmp a b = .lt ↔ (monoVal b).degree < (monoVal a).degree ∨
      ((monoVal b).degree = (monoVal a).degree ∧ Mono.lexCmp a b = .lt)) ∧
    (Mono.gradedCmp a b = .eq ↔ a = b) ∧
    (Mono.gradedCmp a b).swap = Mono.gradedCmp b a ∧
    (Mono.gradedCmp a b = .lt → Mono.gradedCmp b c = .lt → Mono.gradedCmp a c = .lt) ∧
    Mono.gradedCmp (Mono.mul H a c) (Mono.mul H b c) = Mono.gradedCmp a b ∧
    (a ≠ Mono.one → Mono.gradedCmp a Mono.one = .lt) := by
  refine ⟨?_, gradedCmp_eq_iff a b, gradedCmp_swap a b, gradedCmp_lt_trans, gradedCmp_mul H c ha hb, gradedCmp_one ha⟩
  rw [← Mono.degree_eq, ← Mono.degree_eq, Mono.gradedCmp]
  split_ifs with h1 h2
  · simp only [reduceCtorEq, false_iff]; omega
  · simp only [true_iff]; omega
  · have : b.degree = a.degree := by omega
    simp [this]

/-- C113: the product of monomials adds exponents and is well-formed, whatever the order of the hash map. -/
theorem C113_mul (H : HashOrder) (a b : Mono) : monoVal (Mono.mul H a b) = monoVal a + monoVal b ∧ (Mono.mul H a b).WF :=
  ⟨monoVal_mul H a b, Mono.mul_wf H a b⟩

example : Mono.lexCmp [(0, 1), (1, 1)] [(0, 1), (2, 5)] = .lt ∧ Mono.gradedCmp [(0, 1), (1, 1)] [(0, 1), (2, 5)] = .gt := by decide

end Verif.Rings
