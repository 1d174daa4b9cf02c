import Verif.Proofs.IntPolyBounds
import Verif.Proofs.Zassenhaus
import Mathlib.Data.Nat.Cast.Order.Field
import Mathlib.Algebra.Order.Floor.Ring

/-!
# Parts of the Berlekamp–Zassenhaus algorithm: memory stacks, candidates, the `d - 1` test
-/

namespace Verif.Rings

open Polynomial

/-! ## Memory stacks -/

section Mem
variable {β : Type} {compose : β → β → β} {vals : List β} {Rel : List Nat → β → Prop}

/-- every entry of the memory belongs to its prefix of indices -/
def MemOk (Rel : List Nat → β → Prop) (prev : List (Nat × β)) : Prop :=
  ∀ l e, l ++ [e] <+: prev → Rel ((l ++ [e]).map (·.1)) e.2

theorem MemOk.nil : MemOk Rel ([] : List (Nat × β)) := by
  intro l e h
  have := List.prefix_nil.1 h
  simp at this

theorem MemOk.take {prev : List (Nat × β)} (h : MemOk Rel prev) (i : Nat) : MemOk Rel (prev.take i) :=
  fun l e hl => h l e (hl.trans (List.take_prefix _ _))

theorem MemOk.snoc {prev : List (Nat × β)} (h : MemOk Rel prev) (e : Nat × β) (he : Rel ((prev ++ [e]).map (·.1)) e.2) :
    MemOk Rel (prev ++ [e]) := by
  intro l x hl
  rcases List.prefix_concat_iff.1 hl with hl' | hl'
  · obtain ⟨rfl, h2⟩ := List.append_inj' hl' rfl
    cases h2
    exact he
  · exact h l x hl'

theorem memFill (hstep : ∀ l b s v, l ≠ [] → Rel l b → vals[s]? = some v → Rel (l ++ [s]) (compose b v)) (rest : List Nat)
    (hr : ∀ s ∈ rest, s < vals.length) (prev : List (Nat × β)) (hne : prev ≠ []) (h : MemOk Rel prev) :
    ∃ prev', MemStack.fill compose vals rest prev = some prev' ∧ MemOk Rel prev' ∧
      prev'.map (·.1) = prev.map (·.1) ++ rest := by
  induction rest generalizing prev with
  | nil => exact ⟨prev, rfl, h, by simp⟩
  | cons ss rest ih =>
    obtain ⟨l, x, rfl⟩ : ∃ l x, prev = l ++ [x] := ⟨prev.dropLast, prev.getLast hne, (List.dropLast_append_getLast hne).symm⟩
    obtain ⟨w, hs⟩ : ∃ w, vals[ss]? = some w := ⟨_, List.getElem?_eq_getElem (hr ss (by simp))⟩
    have hR : Rel ((l ++ [x]).map (·.1)) x.2 := h l x (List.prefix_refl _)
    have hok : MemOk Rel (l ++ [x] ++ [(ss, compose x.2 w)]) := by
      refine h.snoc _ ?_
      rw [List.map_append]
      exact hstep _ _ _ _ (by simp) hR hs
    obtain ⟨prev', p1, p2, p3⟩ := ih (fun s hs => hr s (by simp [hs])) _ (by simp) hok
    refine ⟨prev', ?_, p2, ?_⟩
    · rw [MemStack.fill]
      simp only [hs, List.getLast?_concat, Option.bind_eq_bind, Option.bind_some]
      exact p1
    · rw [p3]; simp

theorem memAgree (prev : List (Nat × β)) (subset : List Nat) :
    (prev.take (MemStack.agree prev subset)).map (·.1) = subset.take (MemStack.agree prev subset) ∧
    MemStack.agree prev subset ≤ prev.length := by
  induction prev generalizing subset with
  | nil => simp [MemStack.agree]
  | cons e prev ih =>
    cases subset with
    | nil => simp [MemStack.agree]
    | cons s subset =>
      rw [MemStack.agree]
      split
      · simp
      · rename_i hne
        have hne : e.1 = s := by simpa using hne
        obtain ⟨h1, h2⟩ := ih subset
        simp [h1, h2, hne]

theorem memGetProduct (hone : ∀ s v, vals[s]? = some v → Rel [s] v)
    (hstep : ∀ l b s v, l ≠ [] → Rel l b → vals[s]? = some v → Rel (l ++ [s]) (compose b v)) (st : MemStack β) (hv : st.values = vals)
    (h : MemOk Rel st.prev) (subset : List Nat) (hne : subset ≠ []) (hr : ∀ s ∈ subset, s < vals.length) :
    ∃ b st', st.getProduct compose subset = some (b, st') ∧ Rel subset b ∧ st'.values = vals ∧ MemOk Rel st'.prev := by
  have key : ∃ prev', st.update compose subset = some prev' ∧ MemOk Rel prev' ∧ prev'.map (·.1) = subset := by
    rw [MemStack.update]
    obtain ⟨h1, h2⟩ := memAgree st.prev subset
    split
    · obtain ⟨s, rest, rfl⟩ := List.exists_cons_of_ne_nil hne
      obtain ⟨w, hs⟩ : ∃ w, vals[s]? = some w := ⟨_, List.getElem?_eq_getElem (hr s (by simp))⟩
      have hok : MemOk Rel [(s, w)] := by
        have := MemOk.snoc (Rel := Rel) MemOk.nil (s, w) (by simpa using hone _ _ hs)
        simpa using this
      obtain ⟨prev', p1, p2, p3⟩ := memFill hstep rest (fun x hx => hr x (by simp [hx])) _ (by simp) hok
      refine ⟨prev', ?_, p2, by simpa using p3⟩
      simp only [MemStack.first, hv, hs, List.getElem?_cons_zero, Option.bind_eq_bind, Option.bind_some, List.drop_succ_cons, List.drop_zero]
      exact p1
    · rename_i i e
      rw [e] at h1 h2
      have hne' : st.prev.take (i + 1) ≠ [] := by
        intro e'
        have := congrArg List.length e'
        rw [List.length_take] at this
        simp at this
        rw [this] at h2
        simp at h2
      obtain ⟨prev', p1, p2, p3⟩ := memFill hstep (subset.drop (i + 1)) (fun x hx => hr x (List.mem_of_mem_drop hx)) _ hne' (h.take (i + 1))
      refine ⟨prev', ?_, p2, ?_⟩
      · rw [hv]; exact p1
      · rw [p3, h1, List.take_append_drop]
  obtain ⟨prev', p1, p2, p3⟩ := key
  have hlen : prev'.length = subset.length := by rw [← p3, List.length_map]
  have hne' : prev' ≠ [] := by intro e; rw [e] at hlen; simp at hlen; exact hne (List.length_eq_zero_iff.1 hlen.symm)
  obtain ⟨l, x, rfl⟩ : ∃ l x, prev' = l ++ [x] := ⟨prev'.dropLast, prev'.getLast hne', (List.dropLast_append_getLast hne').symm⟩
  refine ⟨x.2, ⟨st.values, l ++ [x]⟩, ?_, ?_, hv, p2⟩
  · have hx : (l ++ [x])[subset.length - 1]? = some x := by
      rw [← hlen]; simp
    rw [MemStack.getProduct]
    simp only [p1, hx, assertThat, Option.bind_eq_bind, Option.bind_some, List.isEmpty_eq_false_iff.2 hne, Bool.not_false, if_true]
  · have := p2 l x (List.prefix_refl _)
    rwa [p3] at this

end Mem

/-! ## Candidates -/

theorem centredRep_spec (M c : Int) (hM : 0 < M) :
    ∃ y, centredRep M c = some y ∧ M ∣ y - c ∧ ∀ x, 2 * |x| < M → M ∣ x - c → y = x := by
  have hz : intOps.isZero M = false := (intOps_models.toSemi.isZero_false M).2 hM.ne'
  have h1 : intOps.rem c M = some (c % M) := by
    rw [EucOps.rem, hz]
    simp only [Bool.false_eq_true, if_false]
    change (some (intQuorem c M)).bind _ = _
    simp [intQuorem, hM.ne', Int.fmod_eq_emod_of_nonneg c hM.le]
  have h2 : intOps.quo M 2 = some (some (M / 2)) := by
    rw [EucOps.quo]
    change (some (intQuorem M 2)).map _ = _
    simp [intQuorem, Int.fdiv_eq_ediv_of_nonneg M (show (0 : Int) ≤ 2 by norm_num)]
  have h3 : centredRep M c = some (if c % M > M / 2 then c % M - M else c % M) := by
    rw [centredRep]
    simp only [h1, h2, Option.bind_eq_bind, Option.bind_some]
  have h4 := Int.emod_nonneg c hM.ne'
  have h5 := Int.emod_lt_of_pos c hM
  have h6 : M ∣ c % M - c := (Int.emod_emod_of_dvd c (dvd_refl M) |> fun _ => by
    rw [Int.emod_def]; exact ⟨-(c / M), by ring⟩)
  refine ⟨_, h3, ?_, ?_⟩
  · split
    · have := Int.dvd_sub h6 (dvd_refl M)
      rwa [show c % M - M - c = c % M - c - M by ring]
    · exact h6
  · intro x hx hd
    rw [← sub_eq_zero]
    refine Int.eq_zero_of_abs_lt_dvd (m := M) ?_ ?_
    · have : M ∣ (c % M - c) - (x - c) := Int.dvd_sub h6 hd
      split
      · have := Int.dvd_sub this (dvd_refl M)
        rwa [show c % M - M - x = c % M - c - (x - c) - M by ring]
      · rwa [show c % M - x = c % M - c - (x - c) by ring]
    · obtain ⟨ha, hb⟩ := abs_lt.1 (show |x| < M - |x| by linarith)
      have := le_abs_self x
      have := neg_abs_le x
      rw [abs_lt]
      split <;> constructor <;> omega

/-- The candidate made from a product of modular factors: a positive multiple of it is the polynomial with small coefficients that is
congruent to the leading coefficient times the product. -/
theorem bzCandidate_spec (M lc : Int) (hM : 0 < M) (hlc : lc ≠ 0) (hlM : 2 * |lc| < M) (prod : List Int) (P : ℤ[X]) (hP : P.Monic)
    (hc : CongMod M (polyVal (id : Int → Int) prod) P) :
    ∃ g c L, bzCandidate M lc prod = some g ∧ 0 < c ∧ L = C c * polyVal (id : Int → Int) g ∧ (polyVal (id : Int → Int) g).IsPrimitive ∧
      CongMod M L (C lc * P) ∧ L.leadingCoeff = lc ∧ L.natDegree = P.natDegree ∧
      ∀ Q, (∀ i, 2 * |Q.coeff i| < M) → CongMod M Q (C lc * P) → Q = L := by
  choose y hy1 hy2 hy3 using fun c => centredRep_spec M c hM
  obtain ⟨l, hl⟩ : ∃ l, l = (intOps.polyMul (polyConst lc) prod).map y := ⟨_, rfl⟩
  have hmap : (intOps.polyMul (polyConst lc) prod).mapM (centredRep M) = some l := by
    rw [hl]; exact mapM_eq_map _ fun x _ => hy1 x
  have hy0 : y 0 = 0 := hy3 0 0 (by simpa using hM) (by simp)
  have hL : ∀ i, (polyVal (id : Int → Int) l).coeff i = y (lc * (polyVal (id : Int → Int) prod).coeff i) := by
    intro i
    have e1 := intOps_models.toSemi.polyMul (polyConst lc) prod
    rw [polyVal_const] at e1
    have e2 : lc * (polyVal (id : Int → Int) prod).coeff i = (intOps.polyMul (polyConst lc) prod).getD i 0 := by
      have := congrArg (fun q => q.coeff i) e1
      simp only [coeff_C_mul] at this
      rw [coeff_polyVal id 0 rfl] at this
      exact this.symm
    rw [e2, coeff_polyVal id 0 rfl, hl]
    simp only [List.getD_eq_getElem?_getD, List.getElem?_map, id]
    cases (intOps.polyMul (polyConst lc) prod)[i]? with
    | none => simp [hy0]
    | some a => simp
  have hcong : CongMod M (polyVal (id : Int → Int) l) (C lc * P) := by
    intro i
    rw [hL, coeff_C_mul]
    have h1 := hy2 (lc * (polyVal (id : Int → Int) prod).coeff i)
    have h2 := (hc i).mul_left lc
    have := dvd_add h1 h2
    rwa [mul_sub, sub_add_sub_cancel] at this
  have huniq : ∀ Q : ℤ[X], (∀ i, 2 * |Q.coeff i| < M) → CongMod M Q (C lc * P) → Q = polyVal (id : Int → Int) l := by
    intro Q hQ hQc
    ext i
    rw [hL]
    symm
    refine hy3 _ _ (hQ i) ?_
    have h1 := hQc i
    have h2 := (hc.symm i).mul_left lc
    rw [coeff_C_mul] at h1
    have := dvd_add h1 h2
    rwa [mul_sub, sub_add_sub_cancel] at this
  have hdeg : ∀ i, P.natDegree < i → (polyVal (id : Int → Int) l).coeff i = 0 := by
    intro i hi
    rw [hL]
    refine hy3 _ 0 (by simpa using hM) ?_
    have h1 := hc i
    rw [coeff_eq_zero_of_natDegree_lt hi, sub_zero] at h1
    rw [zero_sub, dvd_neg]
    exact h1.mul_left _
  have hlead : (polyVal (id : Int → Int) l).coeff P.natDegree = lc := by
    rw [hL]
    refine hy3 _ lc hlM ?_
    have h1 := (hc.symm P.natDegree).mul_left lc
    rw [hP.coeff_natDegree] at h1
    simpa [mul_sub] using h1
  have hne : polyVal (id : Int → Int) l ≠ 0 := fun e => hlc (by rw [← hlead, e]; simp)
  have hnd : (polyVal (id : Int → Int) l).natDegree = P.natDegree :=
    le_antisymm (natDegree_le_iff_coeff_eq_zero.2 hdeg) (le_natDegree_of_ne_zero (by rw [hlead]; exact hlc))
  obtain ⟨c, g, c1, c2, c3, c4, c5, -⟩ := intOps_models.bezout.toGcd.polyFactorPrimitive l hne
  have hcpos : 0 < c := by
    have h1 := c3 c (intFav c).1 (intFav c).2 rfl rfl
    change (intFav c).2 = c at h1
    rw [(intFav_eq c).1] at h1
    rcases lt_or_eq_of_le (abs_nonneg c) with h | h
    · omega
    · exact absurd (abs_eq_zero.1 h.symm) c2
  refine ⟨g, c, polyVal (id : Int → Int) l, ?_, hcpos, c4, c5, hcong, by rw [leadingCoeff, hnd, hlead], hnd, huniq⟩
  rw [bzCandidate]
  simp only [hmap, GcdOps.polyPrimitivePart, c1, Option.bind_eq_bind, Option.bind_some, Option.map_some]

end Verif.Rings
