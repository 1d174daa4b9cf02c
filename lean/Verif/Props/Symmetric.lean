import Verif.Proofs.Symmetric
import Verif.Proofs.SymmetricCheck
import Verif.Proofs.SymmetricUnique
import Verif.Props.MultiPoly
import Mathlib.RingTheory.Polynomial.Vieta

/-!
# C114–C116: symmetric polynomials

`SymmetricIn vars P` says that `P` has no variables but `vars` and that no permutation of them changes `P`; `esymIn R k vars` is the
elementary symmetric polynomial of degree `k`; `esymSubst R e vars` puts `esymIn R (i + 1) vars` for the variable `e[i]`.
-/

namespace Verif.Rings

open MvPolynomial

/-! ## C114: `is_symmetric` -/

/-- C114: for distinct variables and a polynomial without zero terms `is_symmetric` decides whether the polynomial is symmetric in the
variables: trying one or two permutations is enough. -/
theorem C114_is_symmetric_partial {α R : Type} [CommSemiring R] {S : SemiRingOps α} {v : α → R} (h : S.Models v) {vars : List ℕ} (hn : vars.Nodup)
    {p : MPoly α} (hp : p.WF) (hr : p.Reduced v) :
    S.mpIsSymmetric vars p = some true ∧ SymmetricIn vars (mpVal v p) ∨
      S.mpIsSymmetric vars p = some false ∧ ¬SymmetricIn vars (mpVal v p) := by
  obtain ⟨b, h1, h2⟩ := h.mpIsSymmetric hn hp hr
  cases b with
  | true => exact Or.inl ⟨h1, h2.1 rfl⟩
  | false => exact Or.inr ⟨h1, fun h => by simpa using h2.2 h⟩

/-- C114, violated for polynomials with zero terms: `x + 0 y` is `x`, which is symmetric in `x` alone, and it is `==` to `x`, but
`is_symmetric` returns `false` for it and `true` for `x`. -/
theorem C114_zero_terms_wrong : ∃ p q : MPoly Int, p.WF ∧ q.WF ∧ intOps.mpEqual p q = true ∧ mpVal (id : Int → Int) p = mpVal id q ∧
    SymmetricIn [0] (mpVal (id : Int → Int) p) ∧
    intOps.mpIsSymmetric [0] p = some false ∧ intOps.mpIsSymmetric [0] q = some true := by
  have hw : MPoly.WF ([(1, [(0, 1)]), (0, [(1, 1)])] : MPoly Int) := ⟨by unfold Mono.WF; decide, by decide⟩
  have hw' : MPoly.WF ([(1, [(0, 1)])] : MPoly Int) := ⟨by unfold Mono.WF; decide, by decide⟩
  have he : mpVal (id : Int → Int) [(1, [(0, 1)]), (0, [(1, 1)])] = mpVal id [(1, [(0, 1)])] := by
    rw [mpVal_cons, mpVal_single, mpVal_single]; simp
  refine ⟨[(1, [(0, 1)]), (0, [(1, 1)])], [(1, [(0, 1)])], hw, hw', by decide, he, ?_, by decide, by decide⟩
  rw [he]
  obtain ⟨b, h1, h2⟩ := intOps_models.toDomain.toRing.toSemi.mpIsSymmetric (vars := [0]) (by decide) hw' (by unfold MPoly.Reduced; decide)
  have h3 : intOps.mpIsSymmetric [0] [(1, [(0, 1)])] = some true := by decide
  rw [h3] at h1
  exact h2.1 (by simpa using h1.symm)

example : intOps.mpIsSymmetric [0, 1] exXplusY = some true ∧ intOps.mpIsSymmetric [0, 1] exXminusY = some false ∧
    intOps.mpIsSymmetric [0, 1, 2] exXplusY = some false ∧ intOps.mpIsSymmetric [0] exXplusY = some false := by decide

/-! ## C115: `elementary_symmetric` -/

/-- C115: `elementary_symmetric` returns the elementary symmetric polynomial, for any list of variables and any degree. -/
theorem C115_elementary_symmetric {α R : Type} [CommSemiring R] {S : SemiRingOps α} {v : α → R} (h : S.Models v) (H : HashOrder) (k : ℕ)
    (vars : List ℕ) : ∃ p, S.mpElementarySymmetric H k vars = some p ∧ p.WF ∧ p.Reduced v ∧ mpVal v p = esymIn R k vars :=
  h.mpElementarySymmetric H k vars

/-- C115: what it returns is homogeneous of the degree asked for, the constant `1` in degree `0`, zero beyond the number of variables, and it is symmetric when the variables are distinct;
the elementary symmetric polynomials are the coefficients of the product of the `T + x`. -/
theorem C115_properties {α R : Type} [CommRing R] {S : SemiRingOps α} {v : α → R} (h : S.Models v) (H : HashOrder) (k : ℕ)
    (vars : List ℕ) {p : MPoly α} (hp : S.mpElementarySymmetric H k vars = some p) :
    (mpVal v p).IsHomogeneous k ∧ (k = 0 → mpVal v p = 1) ∧ (vars.length < k → mpVal v p = 0) ∧
    (vars.Nodup → SymmetricIn vars (mpVal v p) ∧ S.mpIsSymmetric vars p = some true) ∧
    (k ≤ vars.length → (vars.map fun x => (Polynomial.X + Polynomial.C (X x) : Polynomial (MvPolynomial ℕ R))).prod.coeff (vars.length - k) = mpVal v p) := by
  obtain ⟨q, h1, h2, h3, h4⟩ := h.mpElementarySymmetric H k vars
  rw [hp] at h1
  cases h1
  rw [h4]
  refine ⟨esymIn_homogeneous k vars, fun hk => by rw [hk, esymIn_zero], esymIn_gt k vars, fun hn => ⟨esymIn_symmetric hn k, ?_⟩, fun hk => ?_⟩
  · obtain ⟨b, h5, h6⟩ := h.mpIsSymmetric hn h2 h3
    rw [h5, h6.2 (h4 ▸ esymIn_symmetric hn k)]
  · have := Multiset.prod_X_add_C_coeff ((vars.map X : List (MvPolynomial ℕ R)) : Multiset (MvPolynomial ℕ R)) (k := vars.length - k) (by simp)
    simp only [Multiset.map_coe, Multiset.prod_coe, List.map_map, Multiset.coe_card, List.length_map] at this
    rw [esymIn, show k = vars.length - (vars.length - k) by omega, ← this]
    congr 1
    simp [show vars.length - (vars.length - k) = k by omega, Function.comp_def]

example : intOps.mpElementarySymmetric .insertion 2 [0, 1, 2] = some [(1, [(0, 1), (1, 1)]), (1, [(0, 1), (2, 1)]), (1, [(1, 1), (2, 1)])] := by
  decide +kernel

/-! ## C116: `as_elementary_symmetric_polynomials` -/

section
variable {α R : Type} [CommRing R] {S : DomainOps α} {v : α → R}

/-- C116: for distinct variables and a symmetric polynomial without zero terms the recursion ends, whatever more depth it is given, no step panics, the check at the end passes, and
the result is in the new variables and gives back the polynomial when the elementary symmetric polynomials are put for them. -/
theorem C116_unchecked (h : S.Models v) (H : HashOrder) {vars : List ℕ} (hn : vars.Nodup)
    {p : MPoly α} (hp : p.WF) (hr : p.Reduced v) (hs : SymmetricIn vars (mpVal v p)) (counter : ℕ) {depth : ℕ} (hd : symDepth vars p ≤ depth) :
    ∃ g, S.symUnchecked H depth counter vars p = some (List.range' counter vars.length, g) ∧ g.WF ∧ g.Reduced v ∧
      (∀ x ∈ (mpVal v g).vars, x ∈ List.range' counter vars.length) ∧
      aeval (esymSubst R (List.range' counter vars.length) vars) (mpVal v g) = mpVal v p := by
  have hnd : (List.range' counter vars.length).Nodup := List.nodup_range'
  have hl : (List.range' counter vars.length).length = vars.length := List.length_range'
  have hpos : 0 < depth := by unfold symDepth at hd; omega
  obtain ⟨g, hg, hok⟩ := symImpl_ok h H hnd depth hn hl.ge hp hr hs (fun t ht => by
    cases hdeg : p.degree with
    | none => simp [MPoly.degree] at hdeg; subst hdeg; simp at ht
    | some d =>
      have := MPoly.degree_le_raw hdeg t ht
      simp only [symDepth, hdeg, Option.getD_some] at hd
      omega) hpos
  have hfree := hok.freeVars
  replace hfree : ∀ x ∈ g.freeVars, x ∈ (List.range' counter vars.length).take (List.range' counter vars.length).length := by rwa [hl]
  obtain ⟨l, r, h1, h2, h3, h4, h5⟩ := h.toRing.toSemi.symEvaluate H hnd vars le_rfl g hfree
  refine ⟨g, ?_, hok.wf, hok.reduced, ?_, hok.val⟩
  · have h6 : S.mpEqual p r = true := (h.toRing.toSemi.mpEqual_iff hp h3).2 (by rw [h5, hok.val])
    rw [DomainOps.symUnchecked]
    simp only [hg, h1, h2, h6, assertThat, if_true, Option.bind_eq_bind, Option.bind_some]
  · intro x hx
    exact List.mem_of_mem_take (mem_supported.1 hok.free hx)

/-- C116: for distinct variables and a polynomial without zero terms `as_elementary_symmetric_polynomials` returns `None` exactly when the polynomial is not symmetric in the variables.
Otherwise it returns as many new variables as there are variables and a polynomial `g` in them, such that putting the elementary symmetric polynomials for them gives the polynomial, and
no other polynomial in the new variables does. It never panics and always returns. -/
theorem C116_express_partial (h : S.Models v) (H : HashOrder) (counter : ℕ) {vars : List ℕ} (hn : vars.Nodup)
    {p : MPoly α} (hp : p.WF) (hr : p.Reduced v) :
    (SymmetricIn vars (mpVal v p) ∧ ∃ e g, S.symExpress H counter vars p = some (some (e, g)) ∧ e = List.range' counter vars.length ∧
      g.WF ∧ g.Reduced v ∧ (∀ x ∈ (mpVal v g).vars, x ∈ e) ∧ aeval (esymSubst R e vars) (mpVal v g) = mpVal v p ∧
      ∀ G : MvPolynomial ℕ R, (∀ x ∈ G.vars, x ∈ e) → aeval (esymSubst R e vars) G = mpVal v p → G = mpVal v g) ∨
    (¬SymmetricIn vars (mpVal v p) ∧ S.symExpress H counter vars p = some none) := by
  obtain ⟨b, h1, h2⟩ := h.toRing.toSemi.mpIsSymmetric hn hp hr
  cases b with
  | false =>
    refine Or.inr ⟨fun h => by simpa using h2.2 h, ?_⟩
    rw [DomainOps.symExpress]
    simp only [h1, Option.bind_eq_bind, Option.bind_some, Bool.false_eq_true, if_false]
  | true =>
    have hs := h2.1 rfl
    obtain ⟨g, h3, h4, h5, h6, h7⟩ := C116_unchecked h H hn hp hr hs counter le_rfl
    refine Or.inl ⟨hs, _, g, ?_, rfl, h4, h5, h6, h7, fun G hG hG' => ?_⟩
    · rw [DomainOps.symExpress]
      simp only [h1, h3, Option.bind_eq_bind, Option.bind_some, if_true, Option.map_some]
    · exact esymSubst_injective List.nodup_range' hn List.length_range' hG h6 (hG'.trans h7.symm)

/-- C116: the order in which hash maps are visited does not show in the polynomial returned. -/
theorem C116_hash_order (h : S.Models v) (H H' : HashOrder) (counter : ℕ) {vars : List ℕ} (hn : vars.Nodup)
    {p : MPoly α} (hp : p.WF) (hr : p.Reduced v) {e e' : List ℕ} {g g' : MPoly α} (h1 : S.symExpress H counter vars p = some (some (e, g)))
    (h2 : S.symExpress H' counter vars p = some (some (e', g'))) : e = e' ∧ mpVal v g = mpVal v g' := by
  rcases C116_express_partial h H counter hn hp hr with ⟨_, e1, g1, h3, h4, h5, h6, h7, h8, h9⟩ | ⟨_, h3⟩
  · rcases C116_express_partial h H' counter hn hp hr with ⟨_, e2, g2, i3, i4, i5, i6, i7, i8, i9⟩ | ⟨_, i3⟩
    · rw [h1] at h3
      rw [h2] at i3
      cases h3
      cases i3
      subst h4
      subst i4
      exact ⟨rfl, i9 _ h7 h8⟩
    · rw [h2] at i3; cases i3
  · rw [h1] at h3; cases h3

end

instance : DecidableEq (MPoly Int) := inferInstanceAs (DecidableEq (List (Int × List (ℕ × ℕ))))

/-- C116, violated when a variable is repeated: the code panics for the polynomial `x` and the variables `x, x`. -/
theorem C116_repeated_variables_wrong : intOps.toDomainOps.symExpress .insertion 10 [0, 0] [(1, [(0, 1)])] = none := by decide +kernel

/-- C116: the case of the code's own test: `x³ + y³ + z³ + 4 = e₁³ - 3 e₁ e₂ + 3 e₃ + 4`. -/
theorem C116_example : intOps.toDomainOps.symExpress .insertion 10 [0, 1, 2] [(1, [(0, 3)]), (1, [(1, 3)]), (1, [(2, 3)]), (4, [])] =
    some (some ([10, 11, 12], [(1, [(10, 3)]), (-3, [(10, 1), (11, 1)]), (3, [(12, 1)]), (4, [])])) := by decide +kernel

example : intOps.toDomainOps.symExpress .insertion 10 [0, 1] exXminusY = some none := by decide +kernel

end Verif.Rings
