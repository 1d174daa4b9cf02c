import Verif.Proofs.PadicWrong
import Verif.Proofs.PolyTools
import Mathlib.FieldTheory.AlgebraicClosure
import Mathlib.FieldTheory.IsAlgClosed.Basic

/-!
# Sums, products and inverses of p-adic algebraic numbers
-/

namespace Verif.Padic

open Polynomial Verif.Rings Verif.RealRoots

section
variable {E : Type} [Field E] [CharZero E]

/-- The algebraic numbers of a field can be embedded into the complex numbers. -/
theorem exists_embedding (E : Type) [Field E] [CharZero E] : ∃ (A : Subfield E) (ι : A →+* ℂ), ∀ F : ℤ[X], F ≠ 0 → ∀ x : E, (F.map (Int.castRingHom E)).eval x = 0 → x ∈ A := by
  haveI : Algebra.IsAlgebraic ℚ (algebraicClosure ℚ E) := algebraicClosure.isAlgebraic ℚ E
  let ι : algebraicClosure ℚ E →ₐ[ℚ] ℂ := IsAlgClosed.lift
  refine ⟨(algebraicClosure ℚ E).toSubfield, ι.toRingHom, fun F h0 x hx => ?_⟩
  change x ∈ algebraicClosure ℚ E
  rw [mem_algebraicClosure_iff]
  refine ⟨F.map (Int.castRingHom ℚ), (Polynomial.map_ne_zero_iff (RingHom.injective_int _)).2 h0, ?_⟩
  rw [aeval_def, eval₂_map, ← hx, eval_map]
  congr 1
  exact RingHom.ext_int _ _

theorem eval_embed {A : Subfield E} (ι : A →+* ℂ) (F : ℤ[X]) (x : A) : (F.map (Int.castRingHom ℂ)).eval (ι x) = 0 ↔ (F.map (Int.castRingHom E)).eval (x : E) = 0 := by
  have h1 : (F.map (Int.castRingHom ℂ)).eval (ι x) = ι (F.eval₂ (Int.castRingHom A) x) := by
    rw [eval_map, hom_eval₂]
    congr 1
    exact RingHom.ext_int _ _
  have h2 : (F.map (Int.castRingHom E)).eval (x : E) = A.subtype (F.eval₂ (Int.castRingHom A) x) := by
    rw [eval_map, hom_eval₂]
    congr 1
  rw [h1, h2, map_eq_zero_iff _ ι.injective, map_eq_zero_iff _ A.subtype.injective]

end

section
variable {p : ℕ} [hp : Fact p.Prime]

theorem pv_squarefree {f : List Int} (hf : (ipoly f).IsPrimitive) (hs : Squarefree (ipoly f)) : (pv p f).roots.Nodup := by
  have h1 : ((ipoly f).map (Int.castRingHom ℚ)).Separable := PerfectField.separable_iff_squarefree.2 (squarefree_rat hf hs)
  have h2 := h1.map (f := Rat.castHom ℚ_[p])
  rw [Polynomial.map_map] at h2
  have : (Rat.castHom ℚ_[p]).comp (Int.castRingHom ℚ) = Int.castRingHom ℚ_[p] := by ext; simp
  rw [this] at h2
  exact nodup_roots h2

/-- The polynomial of sums has the sum as a root. -/
theorem sumPoly_root {sumPoly : List Int → List Int → Option (List Int)} (h : OpPolyExact (· + ·) sumPoly) {f g : List Int} (hf : ipoly f ≠ 0)
    (hg : ipoly g ≠ 0) {x y : ℚ_[p]} (hx : (pv p f).eval x = 0) (hy : (pv p g).eval y = 0) :
    ∃ r, sumPoly f g = some r ∧ (ipoly r).IsPrimitive ∧ (pv p r).roots.Nodup ∧ (pv p r).eval (x + y) = 0 := by
  obtain ⟨r, r1, r2, r3, r4⟩ := h f g hf hg
  obtain ⟨A, ι, hA⟩ := exists_embedding ℚ_[p]
  refine ⟨r, r1, r2, pv_squarefree r2 r3, ?_⟩
  have := (eval_embed ι (ipoly r) (⟨x, hA _ hf x hx⟩ + ⟨y, hA _ hg y hy⟩)).1 (by
    rw [map_add]
    exact (r4 _).2 ⟨_, _, (eval_embed ι (ipoly f) ⟨x, hA _ hf x hx⟩).2 hx, (eval_embed ι (ipoly g) ⟨y, hA _ hg y hy⟩).2 hy, rfl⟩)
  exact this

/-- The polynomial of products has the product as a root. -/
theorem prodPoly_root {prodPoly : List Int → List Int → Option (List Int)} (h : OpPolyExact (· * ·) prodPoly) {f g : List Int} (hf : ipoly f ≠ 0)
    (hg : ipoly g ≠ 0) {x y : ℚ_[p]} (hx : (pv p f).eval x = 0) (hy : (pv p g).eval y = 0) :
    ∃ r, prodPoly f g = some r ∧ (ipoly r).IsPrimitive ∧ (pv p r).roots.Nodup ∧ (pv p r).eval (x * y) = 0 := by
  obtain ⟨r, r1, r2, r3, r4⟩ := h f g hf hg
  obtain ⟨A, ι, hA⟩ := exists_embedding ℚ_[p]
  refine ⟨r, r1, r2, pv_squarefree r2 r3, ?_⟩
  have := (eval_embed ι (ipoly r) (⟨x, hA _ hf x hx⟩ * ⟨y, hA _ hg y hy⟩)).1 (by
    rw [map_mul]
    exact (r4 _).2 ⟨_, _, (eval_embed ι (ipoly f) ⟨x, hA _ hf x hx⟩).2 hx, (eval_embed ι (ipoly g) ⟨y, hA _ hg y hy⟩).2 hy, rfl⟩)
  exact this

/-! ## One candidate in one round -/

/-- What a round of the loop knows about the number `w` it looks for. -/
structure Round (w : ℚ_[p]) (k : ℤ) (c : ℚ) (v R : ℤ) : Prop where
  close : ‖w - (c : ℚ_[p])‖ ≤ (p : ℝ) ^ (-R)
  radius : v ≤ R
  step : k ≤ R

theorem overlap_iff (a b : IBall) : ∃ o, a.overlap p b = some o ∧ (o = true ↔ ‖((a.c : ℚ_[p]) - (b.c : ℚ_[p]))‖ ≤ a.v.norm p ∧ ‖((a.c : ℚ_[p]) - (b.c : ℚ_[p]))‖ ≤ b.v.norm p) := by
  obtain ⟨w, w1, w2⟩ := ratVal_norm (p := p) (a.c - b.c)
  refine ⟨_, by rw [IBall.overlap, w1]; rfl, ?_⟩
  rw [Bool.and_eq_true, Valu.le_iff (p := p), Valu.le_iff (p := p), w2]
  push_cast
  exact Iff.rfl

/-- The step of one candidate. -/
def keepOne (dbg : Bool) (fac : Fac) (p : ℕ) (k : ℤ) (s : IBall) (r : PAlg) : Option (Option PAlg) := do
  let r' ← r.refine dbg fac p k
  let o ← r'.ball.overlap p s
  some (if o then some r' else none)

/-- The invariant of one candidate for the number `w'`. -/
structure CandOk (dbg : Bool) (w : ℚ_[p]) (ok : ℤ → Prop) (k : ℤ) (c : PAlg) (w' : ℚ_[p]) : Prop where
  is : c.Is w'
  pos : c.Positive
  safe : c.Safe dbg w'
  prec : w' = w → ∃ r, c = .root r ∧ ∃ M, ok M ∧ max r.approx.v k = max M k

theorem keepOne_spec {fac : Fac} (hfac : FacOk fac) {dbg : Bool} {w : ℚ_[p]} {k : ℤ} {c : ℚ} {v R : ℤ} {ok : ℤ → Prop} (hr : Round w k c v R)
    (hM : ∀ M, ok M → v ≤ max M k ∧ max M k ≤ R) {a : PAlg} {w' : ℚ_[p]} (ha : CandOk dbg w ok k a w') :
    ∃ o, keepOne dbg fac p k ⟨c, .finite v⟩ a = some o ∧ (w' = w → o ≠ none) ∧
      ∀ a', o = some a' → CandOk dbg w ok (k + 1) a' w' ∧ ‖w - w'‖ ≤ (p : ℝ) ^ (-k) := by
  have hmono : ∀ {i j : ℤ}, i ≤ j → (p : ℝ) ^ (-j) ≤ (p : ℝ) ^ (-i) := fun h => zpow_le_zpow_right₀ p_one.le (by omega)
  cases a with
  | rat q =>
    obtain rfl : w' = (q : ℚ_[p]) := ha.is
    obtain ⟨o, o1, o2⟩ := overlap_iff (p := p) (PAlg.rat q).ball ⟨c, .finite v⟩
    refine ⟨if o then some (.rat q) else none, by simp only [keepOne, PAlg.refine, Option.bind_eq_bind, Option.bind_some, o1], ?_, ?_⟩
    · intro e
      obtain ⟨r, h, -⟩ := ha.prec e
      cases h
    · intro a' e
      cases o with
      | false => simp at e
      | true =>
        simp at e
        subst e
        refine ⟨⟨rfl, trivial, trivial, fun e => ?_⟩, ?_⟩
        · obtain ⟨r, h, -⟩ := ha.prec e
          cases h
        · have := (o2.1 rfl).1
          simp only [PAlg.ball, Valu.norm] at this
          have h0 : (q : ℚ_[p]) = (c : ℚ_[p]) := sub_eq_zero.1 (norm_eq_zero.1 (le_antisymm this (norm_nonneg _)))
          rw [h0]
          exact hr.close.trans (hmono hr.step)
  | root r =>
    obtain ⟨s, s1, s2, s3, s4⟩ := PRoot.refine_spec hfac dbg k _ r rfl ha.is ha.safe
    obtain ⟨o, o1, o2⟩ := overlap_iff (p := p) (PAlg.root s).ball ⟨c, .finite v⟩
    have hmem : ‖w' - (s.approx.a : ℚ_[p])‖ ≤ (p : ℝ) ^ (-s.approx.v) := s3.isolates.mem
    refine ⟨if o then some (.root s) else none, by simp only [keepOne, PAlg.refine, s1, Option.map_some, Option.bind_eq_bind, Option.bind_some, o1], ?_, ?_⟩
    · intro e
      obtain ⟨r', h, M, hMok, hp⟩ := ha.prec e
      cases h
      obtain ⟨hM1, hM2⟩ := hM M hMok
      have : o = true := by
        rw [o2]
        simp only [PAlg.ball, PRoot.ball, Valu.norm]
        have hd : ‖(s.approx.a : ℚ_[p]) - (c : ℚ_[p])‖ ≤ (p : ℝ) ^ (-s.approx.v) := by
          have h1 := sub_le (hr.close.trans (hmono (show s.approx.v ≤ R by omega))) (e ▸ hmem)
          rwa [sub_sub_sub_cancel_left] at h1
        exact ⟨hd, hd.trans (hmono (by omega))⟩
      rw [this]; simp
    · intro a' e
      cases o with
      | false => simp at e
      | true =>
        simp at e
        subst e
        refine ⟨⟨s3, by change 0 < (ipoly s.poly).leadingCoeff; rw [s2]; exact ha.pos, by intro h; rw [s2]; exact ha.safe h, fun e => ?_⟩, ?_⟩
        · obtain ⟨r', h, M, hMok, hp⟩ := ha.prec e
          cases h
          exact ⟨s, rfl, M, hMok, by omega⟩
        · have := (o2.1 rfl).1
          simp only [PAlg.ball, PRoot.ball, Valu.norm] at this
          have h1 := add_le (hmem.trans (hmono (show k ≤ s.approx.v by omega))) (this.trans (hmono (show k ≤ s.approx.v by omega)))
          rw [sub_add_sub_cancel] at h1
          have h2 := sub_le (hr.close.trans (hmono hr.step)) h1
          rwa [sub_sub_sub_cancel_right] at h2

/-! ## The loop -/

theorem keepCandidates_eq (dbg : Bool) (fac : Fac) (k : ℤ) (s : IBall) (cands : List PAlg) :
    keepCandidates dbg fac p k s cands = (cands.mapM (keepOne dbg fac p k s)).map (·.filterMap id) := by
  rw [keepCandidates]
  unfold keepOne
  cases h : (List.mapM (fun r : PAlg => (do
    let r' ← r.refine dbg fac p k
    let o ← r'.ball.overlap p s
    some (if o then some r' else none) : Option (Option PAlg))) cands) <;> rfl

theorem keep_spec {fac : Fac} (hfac : FacOk fac) {dbg : Bool} {w : ℚ_[p]} {k : ℤ} {c : ℚ} {v R : ℤ} {ok : ℤ → Prop} (hr : Round w k c v R)
    (hM : ∀ M, ok M → v ≤ max M k ∧ max M k ≤ R) {cands : List PAlg} {ws : List ℚ_[p]} (h : List.Forall₂ (CandOk dbg w ok k) cands ws) :
    ∃ (l : List (Option PAlg)) (ws' : List ℚ_[p]), cands.mapM (keepOne dbg fac p k ⟨c, .finite v⟩) = some l ∧
      List.Forall₂ (CandOk dbg w ok (k + 1)) (l.filterMap id) ws' ∧ ws'.Sublist ws ∧ (w ∈ ws → w ∈ ws') ∧ ∀ z ∈ ws', ‖w - z‖ ≤ (p : ℝ) ^ (-k) := by
  induction h with
  | nil => exact ⟨[], [], rfl, .nil, List.Sublist.slnil, id, by simp⟩
  | @cons a w' cands ws h1 h2 ih =>
    obtain ⟨l, ws', e1, e2, e3, e4, e5⟩ := ih
    obtain ⟨o, o1, o2, o3⟩ := keepOne_spec hfac hr hM h1
    cases o with
    | none =>
      refine ⟨none :: l, ws', by rw [List.mapM_cons, o1, e1]; rfl, by simpa using e2, e3.cons _, ?_, e5⟩
      intro hm
      rcases List.mem_cons.1 hm with e | e
      · exact absurd rfl (o2 e.symm)
      · exact e4 e
    | some a' =>
      obtain ⟨k1, k2⟩ := o3 a' rfl
      refine ⟨some a' :: l, w' :: ws', by rw [List.mapM_cons, o1, e1]; rfl, by simpa using ⟨k1, e2⟩, e3.cons_cons _, ?_, ?_⟩
      · intro hm
        rcases List.mem_cons.1 hm with e | e
        · rw [e]; exact List.mem_cons_self
        · exact List.mem_cons_of_mem _ (e4 e)
      · intro z hz
        rcases List.mem_cons.1 hz with e | e
        · rw [e]; exact k2
        · exact e5 z e

/-- The loop over the candidates ends with the candidate for `w`, if the balls that `gen` computes are right and not too small or too large for
the candidate. -/
theorem candLoop_spec {σ : Type} {fac : Fac} (hfac : FacOk fac) {dbg : Bool} {w : ℚ_[p]} {ok : ℤ → Prop} {K : ℤ} {gen : ℤ → σ → Option (Option IBall × σ)} (I : ℤ → σ → Prop)
    (hgen : ∀ k st, 0 ≤ k → I k st → ∃ c v R st', gen k st = some (some ⟨c, .finite v⟩, st') ∧ I (k + 1) st' ∧ Round w k c v R ∧ ∀ M, ok M → v ≤ max M k ∧ max M k ≤ R) :
    ∀ (n : ℕ) (k : ℤ) (st : σ) (cands : List PAlg) (ws : List ℚ_[p]), (K + 1 - k).toNat = n → 0 ≤ k → I k st → List.Forall₂ (CandOk dbg w ok k) cands ws → ws.Nodup → w ∈ ws →
      (∀ z ∈ ws, z ≠ w → (p : ℝ) ^ (-K) < ‖w - z‖) → (K + 1 ≤ k → cands.length ≤ 1) →
      ∃ c, candLoop dbg fac p gen k st cands = some [c] ∧ c.Is w ∧ c.Positive := by
  have base : ∀ (k : ℤ) (st : σ) (cands : List PAlg) (ws : List ℚ_[p]), List.Forall₂ (CandOk dbg w ok k) cands ws → w ∈ ws → cands.length ≤ 1 →
      ∃ c, candLoop dbg fac p gen k st cands = some [c] ∧ c.Is w ∧ c.Positive := by
    intro k st cands ws h hm hl
    cases h with
    | nil => simp at hm
    | @cons a w' cands ws h1 h2 =>
      cases h2 with
      | nil =>
        rw [List.mem_singleton] at hm
        subst hm
        exact ⟨a, by rw [candLoop]; simp, h1.is, h1.pos⟩
      | cons _ _ => simp at hl
  intro n
  induction n with
  | zero =>
    intro k st cands ws hn h0 hI h hnd hm _ hl
    exact base k st cands ws h hm (hl (by omega))
  | succ n ih =>
    intro k st cands ws hn h0 hI h hnd hm hK hl
    by_cases h1 : cands.length ≤ 1
    · exact base k st cands ws h hm h1
    obtain ⟨c, v, R, st', g1, g2, g3, g4⟩ := hgen k st h0 hI
    obtain ⟨l, ws', e1, e2, e3, e4, e5⟩ := keep_spec hfac g3 g4 h
    have hlen : K + 1 ≤ k + 1 → (l.filterMap id).length ≤ 1 := by
      intro hk
      have hsub : ∀ z ∈ ws', z = w := by
        intro z hz
        by_contra hne
        have h2 := hK z (e3.subset hz) hne
        have h3 := e5 z hz
        have h4 : (p : ℝ) ^ (-k) ≤ (p : ℝ) ^ (-K) := zpow_le_zpow_right₀ p_one.le (by omega)
        linarith
      rw [e2.length_eq]
      have h5 : ws' = List.replicate ws'.length w := List.eq_replicate_iff.2 ⟨rfl, hsub⟩
      have h6 := hnd.sublist e3
      rw [h5, List.nodup_replicate] at h6
      exact h6
    obtain ⟨r, r1, r2⟩ := ih (k + 1) st' (l.filterMap id) ws' (by omega) (by omega) g2 e2 (hnd.sublist e3) (e4 hm) (fun z hz => hK z (e3.subset hz)) hlen
    refine ⟨r, ?_, r2⟩
    rw [candLoop, if_pos (by omega), g1]
    simp only [Option.bind_eq_bind, Option.bind_some, keepCandidates_eq, e1, Option.map_some]
    exact r1

/-- Finitely many numbers are separated from `w` by some precision. -/
theorem exists_sep (w : ℚ_[p]) (ws : List ℚ_[p]) : ∃ K : ℤ, ∀ z ∈ ws, z ≠ w → (p : ℝ) ^ (-K) < ‖w - z‖ := by
  induction ws with
  | nil => exact ⟨0, by simp⟩
  | cons a ws ih =>
    obtain ⟨K, hK⟩ := ih
    by_cases ha : a = w
    · refine ⟨K, fun z hz hne => ?_⟩
      rcases List.mem_cons.1 hz with e | e
      · exact absurd (e.trans ha) hne
      · exact hK z e hne
    · have hne : w - a ≠ 0 := sub_ne_zero.2 (Ne.symm ha)
      refine ⟨max K ((w - a).valuation + 1), fun z hz hne' => ?_⟩
      rcases List.mem_cons.1 hz with e | e
      · rw [e, norm_zpow hne]
        exact zpow_lt_zpow_right₀ p_one (by omega)
      · exact (zpow_le_zpow_right₀ p_one.le (by omega)).trans_lt (hK z e hne')

end

end Verif.Padic
