import Verif.Proofs.EmbeddedAnf

/-! The leading coefficients of the factors over a number field, as rational polynomials, are not zero in the number field. -/

namespace Verif.Anf
open Verif.Rings Polynomial

local notation "qp" => polyVal (id : ℚ → ℚ)

section Mem
variable {α : Type}

theorem mulByLoop_mem {S : FavOps α} {P : α → Prop} {p : α} {k : Nat} (hp : P p) : ∀ (l : List (α × Nat)) (u : α) (r : α × List (α × Nat)),
    Factored.mulByLoop S p k u l = some r → (∀ g ∈ l, P g.1) → ∀ g ∈ r.2, P g.1 := by
  intro l
  induction l with
  | nil =>
    intro u r e _
    cases e
    intro g hg
    rw [List.mem_singleton] at hg
    subst hg
    exact hp
  | cons x l ih =>
    intro u r e hl
    unfold Factored.mulByLoop at e
    obtain ⟨c, -, e⟩ := Option.bind_eq_some_iff.1 e
    cases c with
    | some v =>
      cases e
      intro g hg
      rcases List.mem_cons.1 hg with rfl | hg
      · exact hl x List.mem_cons_self
      · exact hl g (List.mem_cons_of_mem _ hg)
    | none =>
      obtain ⟨r', e1, rfl⟩ := Option.map_eq_some_iff.1 e
      intro g hg
      rcases List.mem_cons.1 hg with rfl | hg
      · exact hl x List.mem_cons_self
      · exact ih u r' e1 (fun y hy => hl y (List.mem_cons_of_mem _ hy)) g hg

theorem mulFold_mem {S : FavOps α} {P : α → Prop} : ∀ (l : List (α × Nat)) (a c : Factored α),
    l.foldlM (fun f p => Factored.mulByUnchecked S f p.1 p.2) a = some c → (∀ g ∈ l, P g.1) → (∀ g ∈ a.factors, P g.1) →
    ∀ g ∈ c.factors, P g.1 := by
  intro l
  induction l with
  | nil => intro a c e _ ha; cases e; exact ha
  | cons x l ih =>
    intro a c e hl ha
    rw [List.foldlM_cons] at e
    simp only [Option.bind_eq_bind] at e
    obtain ⟨a', e1, e⟩ := Option.bind_eq_some_iff.1 e
    refine ih a' c e (fun y hy => hl y (List.mem_cons_of_mem _ hy)) ?_
    obtain ⟨r, r1, rfl⟩ := Option.map_eq_some_iff.1 e1
    exact mulByLoop_mem (hl x List.mem_cons_self) _ _ r r1 ha

theorem factored_mul_mem {S : FavOps α} {P : α → Prop} {a b c : Factored α} (e : Factored.mul S a b = some c) (ha : ∀ g ∈ a.factors, P g.1)
    (hb : ∀ g ∈ b.factors, P g.1) : ∀ g ∈ c.factors, P g.1 := mulFold_mem b.factors _ c e hb ha

variable {S : UfdOps α} {pgcd : List α → List α → Option (List α)} {sq : List α → Option (Factored (List α))} {P : List α → Prop}

theorem yunStep_mem (hs : ∀ a F, sq a = some F → ∀ g ∈ F.factors, P g.1) (st r : YunState α) (e : S.yunStep pgcd sq st = some r)
    (h : ∀ g ∈ st.factors.factors, P g.1) : ∀ g ∈ r.factors.factors, P g.1 := by
  unfold UfdOps.yunStep at e
  simp only [Option.bind_eq_bind] at e
  obtain ⟨a, -, e⟩ := Option.bind_eq_some_iff.1 e
  obtain ⟨fa, e1, e⟩ := Option.bind_eq_some_iff.1 e
  obtain ⟨fs, e2, e⟩ := Option.bind_eq_some_iff.1 e
  obtain ⟨_, -, e⟩ := Option.bind_eq_some_iff.1 e
  obtain ⟨_, -, e⟩ := Option.bind_eq_some_iff.1 e
  obtain ⟨_, -, e⟩ := Option.bind_eq_some_iff.1 e
  cases e
  refine factored_mul_mem e2 h fun g hg => ?_
  obtain ⟨w, hw, rfl⟩ := List.mem_map.1 hg
  exact hs a fa e1 w hw

theorem yunLoop_mem (hs : ∀ a F, sq a = some F → ∀ g ∈ F.factors, P g.1) (st r : YunState α) (e : S.yunLoop pgcd sq st = some r) :
    (∀ g ∈ st.factors.factors, P g.1) → ∀ g ∈ r.factors.factors, P g.1 := by
  refine UfdOps.yunLoop.partial_correctness S pgcd sq
    (motive := fun st r => (∀ g ∈ st.factors.factors, P g.1) → ∀ g ∈ r.factors.factors, P g.1) ?_ st r e
  intro rec ih st r e h
  simp only [Option.bind_eq_bind] at e
  obtain ⟨n, -, e⟩ := Option.bind_eq_some_iff.1 e
  split at e
  · obtain ⟨st', e1, e⟩ := Option.bind_eq_some_iff.1 e
    exact ih st' r e (yunStep_mem hs st st' e1 h)
  · cases e
    exact h

theorem factorizeYun_mem (hs : ∀ a F, sq a = some F → ∀ g ∈ F.factors, P g.1) (hc : ∀ x F, S.factor x = some (some F) → F.factors = [])
    (f : List α) (r : Factored (List α)) (e : S.factorizeYun pgcd sq f = some r) : ∀ g ∈ r.factors, P g.1 := by
  unfold UfdOps.factorizeYun at e
  simp only [Option.bind_eq_bind] at e
  obtain ⟨_, -, e⟩ := Option.bind_eq_some_iff.1 e
  obtain ⟨cp, -, e⟩ := Option.bind_eq_some_iff.1 e
  obtain ⟨cf, e1, e⟩ := Option.bind_eq_some_iff.1 e
  obtain ⟨st, e2, e⟩ := Option.bind_eq_some_iff.1 e
  obtain ⟨st', e3, e⟩ := Option.bind_eq_some_iff.1 e
  refine factored_mul_mem e (yunLoop_mem hs st st' e3 ?_) (by simp [Factored.factoredUnit])
  unfold UfdOps.yunInit at e2
  simp only [Option.bind_eq_bind] at e2
  obtain ⟨_, -, e2⟩ := Option.bind_eq_some_iff.1 e2
  obtain ⟨_, -, e2⟩ := Option.bind_eq_some_iff.1 e2
  obtain ⟨_, -, e2⟩ := Option.bind_eq_some_iff.1 e2
  cases e2
  obtain ⟨x, h1, h2⟩ := Option.bind_eq_some_iff.1 e1
  obtain rfl : x = some cf := h2
  simp [polyConstFactored, hc _ _ h1]

end Mem

section
variable {f : List ℚ} [hirr : Fact (Irreducible (qp f))]

/-- the leading coefficient, as a rational polynomial, is not zero in the number field -/
def GoodRep (f : List ℚ) (g : List (List ℚ)) : Prop := polyVal qp g ≠ 0 → AdjoinRoot.mk (qp f) (polyVal qp g).leadingCoeff ≠ 0

theorem goodRep_of_reduced {g : List (List ℚ)} (h : PolyReduced (el f) g) : GoodRep f g := by
  have h' : PolyReduced qp g := fun c hc h0 => h c hc (by unfold el; rw [h0, map_zero])
  intro hne
  have hg : g ≠ [] := by rintro rfl; exact hne (by simp [polyVal])
  obtain ⟨-, k⟩ := polyReduced_natDegree (v := qp) g h' hg
  have hlt : g.length - 1 < g.length := by
    have := List.length_pos_iff.2 hg
    omega
  have : (polyVal qp g).leadingCoeff = qp (g[g.length - 1]) := by
    rw [← coeff_natDegree, show (polyVal qp g).natDegree = g.length - 1 by omega, coeff_polyVal_lt _ g _ hlt]
  rw [this]
  exact h _ (by rw [List.getLast?_eq_getElem?, List.getElem?_eq_getElem hlt])

theorem goodRep_consts (g : List ℚ) : GoodRep f (g.map polyConst) := by
  intro hne
  have h : polyVal qp (g.map polyConst) = (qp g).map C := polyVal_map (id : ℚ → ℚ) qp polyConst C (fun c => by simp [polyConst, polyVal]) g
  rw [h] at hne ⊢
  have h0 : qp g ≠ 0 := fun h0 => hne (by rw [h0, Polynomial.map_zero])
  rw [leadingCoeff_map_of_injective C_injective]
  intro hc
  have h1 : algebraMap ℚ (NumField f) (qp g).leadingCoeff = 0 := hc
  rw [map_eq_zero] at h1
  exact h0 (leadingCoeff_eq_zero.1 h1)

theorem reducedRing_good {ratFactor : List ℚ → Option (Option (Factored (List ℚ)))} {rng : Nat → Nat → Nat → Nat → Nat → ℚ}
    {p : List (List ℚ)} {F : Factored (List (List ℚ))} (e : reducedRing ratFactor f rng p = some F) : ∀ g ∈ F.factors, GoodRep f g.1 := by
  unfold reducedRing at e
  simp only [Option.bind_eq_bind] at e
  obtain ⟨_, -, e⟩ := Option.bind_eq_some_iff.1 e
  obtain ⟨k, -, e⟩ := Option.bind_eq_some_iff.1 e
  split at e
  · unfold reducedRational at e
    simp only [Option.bind_eq_bind] at e
    obtain ⟨cs, -, e⟩ := Option.bind_eq_some_iff.1 e
    obtain ⟨r, -, e⟩ := Option.bind_eq_some_iff.1 e
    cases e
    intro g hg
    obtain ⟨w, -, rfl⟩ := List.mem_map.1 hg
    exact goodRep_consts w.1
  · unfold reducedGeneral at e
    simp only [Option.bind_eq_bind] at e
    obtain ⟨_, -, e⟩ := Option.bind_eq_some_iff.1 e
    obtain ⟨_, -, e⟩ := Option.bind_eq_some_iff.1 e
    obtain ⟨_, -, e⟩ := Option.bind_eq_some_iff.1 e
    obtain ⟨_, -, e⟩ := Option.bind_eq_some_iff.1 e
    obtain ⟨gen, -, e⟩ := Option.bind_eq_some_iff.1 e
    obtain ⟨x, -, e⟩ := Option.bind_eq_some_iff.1 e
    obtain ⟨r, -, e⟩ := Option.bind_eq_some_iff.1 e
    obtain ⟨factors, e1, e⟩ := Option.bind_eq_some_iff.1 e
    cases e
    intro g hg
    obtain ⟨w, hw, rfl⟩ := List.mem_map.1 hg
    obtain ⟨z1, z2, z3⟩ := forall₂_zip (mapM_some_getElem e1)
    rw [← z2] at hw
    obtain ⟨y, hy, rfl⟩ := List.mem_map.1 hw
    have h := z3 y hy
    unfold reducedFactor at h
    simp only [Option.bind_eq_bind] at h
    obtain ⟨_, -, h⟩ := Option.bind_eq_some_iff.1 h
    obtain ⟨_, -, h⟩ := Option.bind_eq_some_iff.1 h
    obtain ⟨_, -, h⟩ := Option.bind_eq_some_iff.1 h
    obtain ⟨_, -, h⟩ := Option.bind_eq_some_iff.1 h
    obtain ⟨_, -, h⟩ := Option.bind_eq_some_iff.1 h
    obtain ⟨_, -, h⟩ := Option.bind_eq_some_iff.1 h
    obtain ⟨_, -, h⟩ := Option.bind_eq_some_iff.1 h
    obtain ⟨_, -, h⟩ := Option.bind_eq_some_iff.1 h
    obtain ⟨_, -, h⟩ := Option.bind_eq_some_iff.1 h
    obtain ⟨_, -, h⟩ := Option.bind_eq_some_iff.1 h
    obtain ⟨_, -, h⟩ := Option.bind_eq_some_iff.1 h
    obtain ⟨_, -, h⟩ := Option.bind_eq_some_iff.1 h
    obtain ⟨_, -, h⟩ := Option.bind_eq_some_iff.1 h
    have h := Option.some.inj h
    change GoodRep f y.2
    rw [← h]
    exact goodRep_of_reduced ((anfOps_models (f := f)).toRing.toSemi.polyReduce_reduced _)

theorem rationalFirst_good {ratFactor : List ℚ → Option (Option (Factored (List ℚ)))} {rng : Nat → Nat → Nat → Nat → Nat → ℚ}
    {p : List (List ℚ)} {F : Factored (List (List ℚ))} (e : rationalFirst ratFactor f (reducedRing ratFactor f rng) p = some F) :
    ∀ g ∈ F.factors, GoodRep f g.1 := by
  unfold rationalFirst at e
  simp only [Option.bind_eq_bind] at e
  obtain ⟨_, -, e⟩ := Option.bind_eq_some_iff.1 e
  split at e
  · exact reducedRing_good e
  · obtain ⟨r, -, e⟩ := Option.bind_eq_some_iff.1 e
    have : ∀ (l : List (List ℚ × Nat)) (st : Factored (List (List ℚ))), (∀ g ∈ st.factors, GoodRep f g.1) →
        l.foldlM (rationalLoop f (reducedRing ratFactor f rng)) st = some F → ∀ g ∈ F.factors, GoodRep f g.1 := by
      intro l
      induction l with
      | nil => intro st hst e; cases e; exact hst
      | cons x l ih =>
        intro st hst e
        rw [List.foldlM_cons] at e
        simp only [Option.bind_eq_bind] at e
        obtain ⟨st', e1, e⟩ := Option.bind_eq_some_iff.1 e
        refine ih st' ?_ e
        unfold rationalLoop at e1
        simp only [Option.bind_eq_bind] at e1
        obtain ⟨h, h1, e1⟩ := Option.bind_eq_some_iff.1 e1
        exact factored_mul_mem e1 hst (reducedRing_good h1)
    exact this r.factors _ (by simp [Factored.factoredUnit]) e

theorem anfFactor_good {ratFactor : List ℚ → Option (Option (Factored (List ℚ)))} {rng : Nat → Nat → Nat → Nat → Nat → ℚ}
    {p : List (List ℚ)} {F : Factored (List (List ℚ))} (e : anfFactor ratFactor f rng p = some (some F)) : ∀ g ∈ F.factors, GoodRep f g.1 := by
  unfold anfFactor at e
  split at e
  · cases e
  · obtain ⟨F', e1, e2⟩ := Option.map_eq_some_iff.1 e
    cases e2
    refine factorizeYun_mem (P := GoodRep f) (fun a F h => rationalFirst_good h) (fun x F h => ?_) p F e1
    change some (if (anfOps f).isZero x then none else some (⟨x, []⟩ : Factored (List ℚ))) = _ at h
    split at h
    · cases h
    · cases h
      rfl

/-- the loop over the factors returns -/
theorem polyExprLoop_total {A : Type} {O : AlgOps A} (h1 : ∀ a p, ∃ b, O.applyPoly a p = some b) (h2 : ∀ a b, ∃ r, O.eq a b = some r)
    (target generator : A) : ∀ (l : List (List (List ℚ) × Nat)), (∀ g ∈ l, (polyVal (el f) g.1).Monic ∧ GoodRep f g.1) →
      ∃ r, polyExprLoop O target generator f l = some r := by
  intro l
  induction l with
  | nil => exact fun _ => ⟨none, rfl⟩
  | cons g l ih =>
    intro hl
    obtain ⟨hm, hgood⟩ := hl g List.mem_cons_self
    have hM := ratOps_models.toRing.toSemi.poly
    have hne : polyVal qp g.1 ≠ 0 := by
      intro h0
      rw [el_mk_poly, h0, Polynomial.map_zero] at hm
      exact hm.ne_zero rfl
    obtain ⟨lc, k1, k2⟩ := hM.polyLeadingCoeff_some g.1 hne
    have hdeg := hM.polyDegree_some g.1 hne
    have hlc : (anfOps f).equal lc (anfOps f).one = true := by
      rw [(anfOps_models (f := f)).toRing.toSemi.equal, (anfOps_models (f := f)).toRing.toSemi.one]
      unfold el
      rw [k2]
      have h3 := hm
      rw [el_mk_poly, Monic, leadingCoeff_map_of_leadingCoeff_ne_zero _ (hgood hne)] at h3
      exact h3
    obtain ⟨r, hr⟩ := ih fun w hw => hl w (List.mem_cons_of_mem _ hw)
    unfold polyExprLoop
    rw [k1, hdeg]
    simp only [Option.bind_eq_bind, Option.bind_some, hlc, assertThat, if_true]
    split
    · obtain ⟨b, hb⟩ := h1 generator ((anfOps f).neg (ratOps.toSemiRingOps.poly.polyCoeff g.1 0))
      obtain ⟨q, hq⟩ := h2 b target
      rw [hb, Option.bind_some, hq, Option.bind_some]
      cases q
      · exact ⟨r, hr⟩
      · exact ⟨_, rfl⟩
    · exact ⟨r, hr⟩

end
end Verif.Anf
