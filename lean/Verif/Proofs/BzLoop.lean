import Verif.Proofs.BzSearch

/-!
# The loops of the Berlekamp–Zassenhaus algorithm
-/

namespace Verif.Rings

open Polynomial Finset Verif.Sets

/-- the sets still to be produced -/
def pending (k : ℕ) (c : Comb) : List (List ℕ) := (pend k c).map (items c)

theorem excludeAll_spec {N k : ℕ} (l : List ℕ) (hl : ∀ x ∈ l, x < N) (c : Comb) (h : CInv N k c) :
    ∃ c', excludeAll c l = some c' ∧ CInv N k c' ∧ (∀ u, u ∈ pending k c' ↔ u ∈ pending k c ∧ ∀ x ∈ l, x ∉ u) ∧
      (pending k c').length ≤ (pending k c).length := by
  induction l generalizing c with
  | nil => exact ⟨c, rfl, h, by simp, le_rfl⟩
  | cons a l ih =>
    obtain ⟨c1, h1, h2, h3⟩ := exclude_spec h a (hl a (by simp))
    obtain ⟨c2, h4, h5, h6, h7⟩ := ih (fun x hx => hl x (by simp [hx])) c1 h2
    refine ⟨c2, ?_, h5, fun u => ?_, h7.trans ?_⟩
    · rw [excludeAll, List.foldlM_cons, h1]; exact h4
    · rw [h6, pending, h3, List.mem_filter]
      simp only [decide_eq_true_eq, List.mem_cons, forall_eq_or_imp]
      rw [pending]; tauto
    · rw [pending, h3]; exact List.length_filter_le _ _

section
variable {b : BzPrime} {p : ℤ} {t : ℕ}

/-- the remaining modular factors -/
def remaining (b : BzPrime) (s : BzSearch) : Finset ℕ := range b.factors.length \ s.excluded.toFinset

/-- every irreducible divisor is linear -/
def AllLinear (F : ℤ[X]) : Prop := ∀ q, Irreducible q → q ∣ F → q.natDegree = 1

/-- the invariant of the search -/
structure SInv (b : BzPrime) (p : ℤ) (t : ℕ) (root : ℚ) (s : BzSearch) : Prop where
  dm : DmOk (p ^ t) (bzF b) root b.factors.length (bzG b) s.dm
  values : s.stack.values = b.factors
  mem : MemOk (fun l P => CongMod (p ^ t) (polyVal (id : Int → Int) P) (l.map (bzG b)).prod) s.stack.prev
  mf : ModFact p t (polyVal (id : Int → Int) s.f) (remaining b s) (bzG b)
  m : s.m = (remaining b s).card
  excl : ∀ x ∈ s.excluded, x < b.factors.length
  valid : s.factored.Valid intOps.toFavOps.poly (polyVal (id : Int → Int))
  prod : s.factored.denote (polyVal (id : Int → Int)) * polyVal (id : Int → Int) s.f = bzF b
  pos : 0 < (bzF b).leadingCoeff → 0 < (polyVal (id : Int → Int) s.f).leadingCoeff
  irr : s.excluded = [] ∨ ¬ Irreducible (bzF b)
  neg : (bzF b).leadingCoeff < 0 → AllLinear (bzF b) →
    0 < (-1) ^ ((bzF b).natDegree + (polyVal (id : Int → Int) s.f).natDegree + 1) * (polyVal (id : Int → Int) s.f).leadingCoeff

/-- every divisor that is not a unit belongs to at least `k` modular factors -/
def MinSets (b : BzPrime) (p : ℤ) (t : ℕ) (k : ℕ) (s : BzSearch) : Prop :=
  ∀ S ⊆ remaining b s, S ≠ ∅ → Real p t (bzG b) (polyVal (id : Int → Int) s.f) S → k ≤ S.card

/-- when all the factors are linear, there are as many as the degree says -/
theorem ModFact.card_of_linear {g : ℕ → ℤ[X]} {A : Finset ℕ} {F : ℤ[X]} (h : ModFact p t F A g) (hprim : F.IsPrimitive)
    (hlin : AllLinear F) : A.card = F.natDegree := by
  obtain ⟨d, hd⟩ : ∃ d, F.natDegree = d := ⟨_, rfl⟩
  induction d generalizing F A with
  | zero =>
    rw [h.empty h.lc (Finset.Subset.refl _) h.cong hd, hd]; rfl
  | succ d ih =>
    have hF0 := hprim.ne_zero
    obtain ⟨q, hq, e⟩ := WfDvdMonoid.exists_irreducible_factor (fun hu => by
      rw [natDegree_eq_zero_of_isUnit hu] at hd; omega) hF0
    obtain ⟨H, e⟩ := e
    obtain ⟨U, hU, hUi⟩ := h.split e
    have hHi := h.cancel e hU hUi
    obtain ⟨hlq, hlH⟩ := lc_of_mul e h.lc
    have h1 := hlin q hq ⟨H, e⟩
    have h2 := h.natDegree_of_is hU hlq hUi
    have hH0 : H ≠ 0 := by rintro rfl; rw [mul_zero] at e; exact hF0 e
    have h3 : F.natDegree = 1 + H.natDegree := by rw [e, natDegree_mul hq.ne_zero hH0, h1]
    have hUc : U.card = 1 := by
      have h4 : U.card ≤ ∑ i ∈ U, (g i).natDegree := by
        rw [Finset.card_eq_sum_ones]
        exact Finset.sum_le_sum fun i hi => h.pos (hU hi)
      have h5 : U.card ≠ 0 := by
        intro e0
        rw [Finset.card_eq_zero.1 e0] at h2
        simp at h2; omega
      omega
    have h6 := ih (h.sub ⟨q, by rw [e, mul_comm]⟩ Finset.sdiff_subset hHi) (isPrim_of_dvd hprim ⟨q, by rw [e, mul_comm]⟩)
      (fun r hr hd => hlin r hr (hd.trans ⟨q, by rw [e, mul_comm]⟩)) (by omega)
    have h7 := Finset.card_sdiff_add_card_eq_card hU
    omega

variable (hb : BzCtx b p t) {root : ℚ} (hroot : 1 ≤ root)
  (hroots : ∀ z, ((bzF b).map (Int.castRingHom ℂ)).IsRoot z → ‖z‖ ≤ (root : ℝ))

theorem SInv.dvd {s : BzSearch} (hs : SInv b p t root s) : polyVal (id : Int → Int) s.f ∣ bzF b := ⟨_, by rw [mul_comm]; exact hs.prod.symm⟩

theorem remaining_sub (s : BzSearch) : remaining b s ⊆ range b.factors.length := Finset.sdiff_subset

include hb

theorem SInv.prim {s : BzSearch} (hs : SInv b p t root s) : (polyVal (id : Int → Int) s.f).IsPrimitive := isPrim_of_dvd hb.prim hs.dvd

/-- a divisor that belongs to no modular factor is a unit -/
theorem SInv.unit {s : BzSearch} (hs : SInv b p t root s) {G : ℤ[X]} (hG : G ∣ polyVal (id : Int → Int) s.f)
    (hd : G.natDegree = 0) : IsUnit G := by
  have hp := isPrim_of_dvd (hs.prim hb) hG
  rw [eq_C_of_natDegree_eq_zero hd] at hp ⊢
  exact isUnit_C.2 (hp _ (dvd_refl _))

/-- a polynomial none of whose proper sets belongs to a divisor is irreducible -/
theorem SInv.irreducible {s : BzSearch} (hs : SInv b p t root s) {G : ℤ[X]} (hG : G ∣ polyVal (id : Int → Int) s.f) {S : Finset ℕ}
    (hS : S ⊆ remaining b s) (hi : Is p t (bzG b) G S) (hne : S ≠ ∅)
    (hno : ∀ U ⊆ S, U ≠ ∅ → U ≠ S → Real p t (bzG b) (polyVal (id : Int → Int) s.f) U → ¬ Real p t (bzG b) (polyVal (id : Int → Int) s.f) (S \ U)) :
    Irreducible G := by
  have hmf := hs.mf.sub hG hS hi
  refine ⟨fun hu => ?_, fun x y e => ?_⟩
  · exact hne (hs.mf.empty hmf.lc hS hi (natDegree_eq_zero_of_isUnit hu))
  · by_contra hcon
    push Not at hcon
    obtain ⟨U, hU, hUi⟩ := hmf.split e
    have hyi := hmf.cancel e hU hUi
    have hx : x ∣ polyVal (id : Int → Int) s.f := (Dvd.intro _ e.symm).trans hG
    have hy : y ∣ polyVal (id : Int → Int) s.f := (Dvd.intro_left _ e.symm).trans hG
    obtain ⟨hlx, hly⟩ := lc_of_mul e hmf.lc
    refine hno U hU ?_ ?_ ⟨x, hx, hUi⟩ ⟨y, hy, hyi⟩
    · rintro rfl
      have := hmf.natDegree_of_is hU hlx hUi
      exact hcon.1 (hs.unit hb hx (by simpa using this))
    · rintro rfl
      have := hmf.natDegree_of_is (Finset.sdiff_subset) hly hyi
      exact hcon.2 (hs.unit hb hy (by simpa using this))

include hroot hroots

/-- one turn of the inner loop -/
theorem bzTry_spec {k : ℕ} (hk : 1 ≤ k) (hkn : k < b.factors.length) {s : BzSearch} (hs : SInv b p t root s) (hmin : MinSets b p t k s) {c : Comb}
    (hc : CInv b.factors.length k c) (l : List ℕ) (hl : l.Pairwise (· < ·)) (hlen : l.length = k) (hlA : l.toFinset ⊆ remaining b s) :
    ∃ s' c', bzTry b k l s c = some (s', c') ∧ SInv b p t root s' ∧ CInv b.factors.length k c' ∧
      ((polyVal (id : Int → Int) s'.f = polyVal (id : Int → Int) s.f ∧ s'.excluded = s.excluded ∧ c' = c ∧
        ¬ Real p t (bzG b) (polyVal (id : Int → Int) s.f) l.toFinset) ∨
      (polyVal (id : Int → Int) s'.f ∣ polyVal (id : Int → Int) s.f ∧ s'.excluded = s.excluded ++ l ∧
        (∀ u, u ∈ pending k c' ↔ u ∈ pending k c ∧ ∀ x ∈ l, x ∉ u) ∧ (pending k c').length ≤ (pending k c).length)) := by
  classical
  have hlN : l.toFinset ⊆ range b.factors.length := hlA.trans (remaining_sub s)
  have hln : ∀ x ∈ l, x < b.factors.length := fun x hx => Finset.mem_range.1 (hlN (List.mem_toFinset.2 hx))
  have hlne : l ≠ [] := by rintro rfl; simp at hlen; omega
  have hcard : l.toFinset.card = k := by rw [List.toFinset_card_of_nodup (hl.imp fun h => Nat.ne_of_lt h), hlen]
  have hSne : l.toFinset.Nonempty := by rw [← Finset.card_pos, hcard]; omega
  have hcn : l.toFinset.card < b.factors.length := by omega
  have hMpos := hb.M_pos
  have hsumlt : (l.map fun s => (bzG b s).natDegree).sum < machineRange := by
    rw [← sum_toFinset _ l hl]
    exact (hb.natDegree_lt hlN hcn).trans hb.deg
  have hdn : ∀ s < b.factors.length, (bzG b s).natDegree < machineRange := by
    intro s hs
    refine lt_of_le_of_lt ?_ hb.deg
    rw [hb.natDegree]
    exact Finset.single_le_sum (f := fun i => (bzG b i).natDegree) (fun _ _ => Nat.zero_le _) (Finset.mem_range.2 hs)
  obtain ⟨r, dm', d1, d2, d3⟩ := hs.dm.test hMpos hroot l hlne hln hsumlt (fun s hs => hb.mf.pos (Finset.mem_range.2 hs)) hdn
  have hs1 : SInv b p t root { s with dm := dm' } := { hs with dm := d2 }
  rw [bzTry]
  simp only [d1, Option.bind_eq_bind, Option.bind_some]
  by_cases hr : r = true
  · rw [if_pos hr]
    refine ⟨_, _, rfl, hs1, hc, Or.inl ⟨rfl, rfl, rfl, ?_⟩⟩
    rintro ⟨G, hG, hi⟩
    obtain ⟨H, e⟩ := hG.trans hs.dvd
    obtain ⟨q1, q2, q3⟩ := next_coeff_cong hb.mf e hlN hi hSne
    refine d3 hr (H.leadingCoeff * G.coeff (G.natDegree - 1)) ?_ ?_
    · rwa [sum_toFinset _ l hl] at q3
    · have := next_coeff_bound (bzF b) G H hb.prim.ne_zero e root hroots q2
      rw [← sum_toFinset _ l hl, ← q1]
      exact_mod_cast this
  rw [if_neg hr, bzCheck]
  have hM0 : (id b.modulus : ℤ) ≠ 0 := by rw [hb.modulus]; exact hMpos.ne'
  have hQ := intOps_models.quotientPoly b.modulus hM0
  have hM' : (id b.modulus : ℤ) = p ^ t := hb.modulus
  have hgv : ∀ i v, b.factors[i]? = some v → bzG b i = polyVal (id : Int → Int) v := by
    intro i v hv
    rw [bzG, List.getD_eq_getElem?_getD, hv]; rfl
  obtain ⟨P, st', p1, p2, p3, p4⟩ := memGetProduct
    (Rel := fun l P => CongMod (p ^ t) (polyVal (id : Int → Int) P) (l.map (bzG b)).prod)
    (compose := (intOps.quotientRing b.modulus).polyMul) (vals := b.factors)
    (by
      intro i v hv
      simp only [List.map_cons, List.map_nil, List.prod_cons, List.prod_nil, mul_one, hgv i v hv]
      exact .refl _ _)
    (by
      intro l P i v _ hP hv
      rw [List.map_append, List.prod_append]
      simp only [List.map_cons, List.map_nil, List.prod_cons, List.prod_nil, mul_one, hgv i v hv]
      have h1 := hQ.mul P v
      rw [← Polynomial.map_mul, map_mk_eq_iff, hM'] at h1
      exact h1.trans (hP.mul (.refl _ _)))
    s.stack hs.values hs.mem l hlne hln
  rw [← prod_toFinset _ l hl] at p2
  obtain ⟨g, g1, g2, g3, g4, g5, g6⟩ := hb.candidate l.toFinset hlN hcn P p2
  have hgd : 0 < (polyVal (id : Int → Int) g).natDegree := by
    rw [g4]; exact Finset.sum_pos (fun i hi => hb.mf.pos (hlN hi)) hSne
  have hg0 : polyVal (id : Int → Int) g ≠ 0 := g2.ne_zero
  have hdeg := intOps_models.toSemi.polyDegree_some g hg0
  have hbn : ((polyVal (id : Int → Int) g).natDegree != 0) = true := by simpa using hgd.ne'
  have hs2 : SInv b p t root { s with dm := dm', stack := st' } := { hs1 with values := p3, mem := p4 }
  simp only [p1, g1, hdeg, hbn, assertThat, if_true, Option.bind_eq_bind, Option.bind_some]
  rw [bzDivide]
  rcases intOps_models.toDomain.polyDiv_cases s.f g with ⟨e, -⟩ | ⟨-, h, e1, e2⟩ | ⟨-, e1, e2⟩
  · exact absurd e hg0
  · -- found
    rw [e1]
    simp only [Option.bind_some]
    have hgf : polyVal (id : Int → Int) g ∣ polyVal (id : Int → Int) s.f := Dvd.intro_left _ e2.symm
    have hirr : Irreducible (polyVal (id : Int → Int) g) := by
      refine hs.irreducible hb hgf hlA g3 hSne.ne_empty ?_
      intro U hU hU0 hUS hR hR'
      have h1 := hmin U (hU.trans hlA) hU0 hR
      have h2 := hmin (l.toFinset \ U) (Finset.sdiff_subset.trans hlA) (by
        intro e
        exact hUS (Finset.Subset.antisymm hU (Finset.sdiff_eq_empty_iff_subset.1 e))) hR'
      have h3 := Finset.card_sdiff_add_card_eq_card hU
      omega
    have hF := intOps_models.toFav.poly
    obtain ⟨irr, i1, i2, i3⟩ := Factored.factoredIrreducible_spec hF g hirr
    obtain ⟨fac, f1, f2, f3⟩ := Factored.mul_spec hF s.factored irr hs.valid.fav i2.fav
    have hkm : k ≤ s.m := by rw [hs.m, ← hcard]; exact Finset.card_le_card hlA
    obtain ⟨c', c1, c2, c3, c4⟩ := excludeAll_spec l hln c hc
    have hrem : remaining b { s with dm := dm', stack := st', f := h, factored := fac, m := s.m - k, excluded := s.excluded ++ l } =
        remaining b s \ l.toFinset := by
      simp only [remaining, List.toFinset_append]
      rw [sdiff_sdiff_left]; rfl
    have e2' : polyVal (id : Int → Int) s.f = polyVal (id : Int → Int) g * polyVal (id : Int → Int) h := by rw [e2, mul_comm]
    refine ⟨{ s with dm := dm', stack := st', f := h, factored := fac, m := s.m - k, excluded := s.excluded ++ l }, c', ?_, ?_, c2, Or.inr ⟨?_, rfl, c3, c4⟩⟩
    · rw [bzFound]
      have hd : decide (k ≤ s.m) = true := by simpa using hkm
      simp only [i1, f1, hd, c1, assertThat, if_true, Option.bind_eq_bind, Option.bind_some]
    · refine { hs2 with mf := ?_, m := ?_, excl := ?_, valid := f3 hs.valid i2, prod := ?_, pos := ?_, irr := ?_, neg := ?_ }
      · rw [hrem]
        exact hs.mf.sub ⟨_, e2⟩ Finset.sdiff_subset (hs.mf.cancel e2' hlA g3)
      · rw [hrem, Finset.card_sdiff_of_subset hlA, hcard, ← hs.m]
      · intro x hx
        rcases List.mem_append.1 hx with hx | hx
        · exact hs.excl x hx
        · exact hln x hx
      · change fac.denote _ * polyVal id h = _
        rw [f2, i3, mul_assoc, ← e2', hs.prod]
      · intro hpos
        have h1 := hs.pos hpos
        rw [e2', leadingCoeff_mul] at h1
        exact (pos_iff_pos_of_mul_pos h1).1 ((pos_iff_pos_of_mul_pos g5).1 hpos)
      · right
        intro hirrF
        obtain ⟨q, hq⟩ := hgf.trans hs.dvd
        have h1 := hb.natDegree_lt hlN hcn
        rw [← g4] at h1
        rcases hirrF.isUnit_or_isUnit hq with hu | hu
        · exact hirr.not_isUnit hu
        · have hq0 : q ≠ 0 := hu.ne_zero
          rw [hq, natDegree_mul hg0 hq0, natDegree_eq_zero_of_isUnit hu] at h1
          omega
      · intro hneg hlin
        have h1 := hs.neg hneg hlin
        have h2 := hlin _ hirr (hgf.trans hs.dvd)
        have h0 : polyVal (id : Int → Int) h ≠ 0 := by
          intro e; rw [e, mul_zero] at e2'; exact (hs.prim hb).ne_zero e2'
        rw [e2', natDegree_mul hg0 h0, h2, leadingCoeff_mul] at h1
        have h3 : (polyVal (id : Int → Int) g).leadingCoeff < 0 := by
          by_contra hc
          exact absurd g5 (not_lt.2 (mul_nonpos_of_nonpos_of_nonneg hneg.le (not_lt.1 hc)))
        have h4 : 0 < (-1) ^ ((bzF b).natDegree + (polyVal (id : Int → Int) h).natDegree + 1) *
            (polyVal (id : Int → Int) h).leadingCoeff * (-(polyVal (id : Int → Int) g).leadingCoeff) := by
          refine lt_of_lt_of_eq h1 ?_
          rw [show (bzF b).natDegree + (1 + (polyVal (id : Int → Int) h).natDegree) + 1 =
            (bzF b).natDegree + (polyVal (id : Int → Int) h).natDegree + 1 + 1 by omega, pow_succ]
          ring
        exact (pos_iff_pos_of_mul_pos h4).2 (by omega)
    · exact ⟨_, e2⟩
  · -- not found
    rw [e2]
    simp only [Option.bind_some]
    refine ⟨_, _, rfl, hs2, hc, Or.inl ⟨rfl, rfl, rfl, ?_⟩⟩
    rintro ⟨G, hG, hi⟩
    exact e1 (((g6 G (hG.trans hs.dvd) hi).symm.dvd).trans hG)

/-- the inner loop -/
theorem bzInner_spec {k : ℕ} (hk : 1 ≤ k) (hkn : k < b.factors.length) (allowed : Finset ℕ → Prop) (N : ℕ) :
    ∀ (s : BzSearch) (c : Comb), (pend k c).length = N → SInv b p t root s → MinSets b p t k s → CInv b.factors.length k c →
      (∀ u ∈ pending k c, u.Pairwise (· < ·) ∧ u.length = k ∧ u.toFinset ⊆ remaining b s) →
      (∀ S ⊆ remaining b s, S.card = k → allowed S → Real p t (bzG b) (polyVal (id : Int → Int) s.f) S → ∃ u ∈ pending k c, u.toFinset = S) →
      ∃ s', bzInner b k s c = some s' ∧ SInv b p t root s' ∧ MinSets b p t k s' ∧
        (∀ S ⊆ remaining b s', S.card = k → allowed S → ¬ Real p t (bzG b) (polyVal (id : Int → Int) s'.f) S) ∧
        (remaining b s' = remaining b s ∨ s'.m + k ≤ s.m) := by
  induction N using Nat.strong_induction_on with
  | _ N ih =>
  intro s c hN hs hmin hc hpend hall
  obtain ⟨c1, n1, n2, n3, n4, n5, n6⟩ := next_spec hc
  have hitems : items c1 = items c := items_congr n5
  rw [bzInner, n1]
  simp only [Option.bind_eq_bind, Option.bind_some]
  cases hpd : (pend k c) with
  | nil =>
    simp only [List.map_nil, List.head?_nil]
    refine ⟨s, rfl, hs, hmin, fun S hS hSk ha hR => ?_, Or.inl rfl⟩
    obtain ⟨u, hu, -⟩ := hall S hS hSk ha hR
    rw [pending, hpd] at hu
    simp at hu
  | cons v rest =>
    simp only [List.map_cons, List.head?_cons]
    have hpc : pending k c = items c v :: pending k c1 := by
      rw [pending, pending, hpd, n3, hpd, hitems]; rfl
    have hlen1 : (pend k c1).length < N := by rw [n3, hpd]; rw [← hN, hpd]; simp
    obtain ⟨u1, u2, u3⟩ := hpend (items c v) (by rw [hpc]; simp)
    obtain ⟨s', c', t1, t2, t3, t4⟩ := bzTry_spec hb hroot hroots hk hkn hs hmin n2 (items c v) u1 u2 u3
    rw [t1]
    simp only [Option.bind_some]
    have hm' : ∀ s0 : BzSearch, SInv b p t root s0 → s0.m = (remaining b s0).card := fun s0 h => h.m
    rcases t4 with ⟨w1, w2, rfl, w4⟩ | ⟨w1, w2, w3, w4⟩
    · have hrem : remaining b s' = remaining b s := by rw [remaining, remaining, w2]
      obtain ⟨s'', x1, x2, x3, x4, x5⟩ := ih _ hlen1 s' c' rfl t2
        (by
          intro S hS hS0 hR
          rw [hrem] at hS
          rw [w1] at hR
          exact hmin S hS hS0 hR) t3
        (by
          intro u hu
          rw [hrem]
          exact hpend u (by rw [hpc]; exact List.mem_cons_of_mem _ hu))
        (by
          intro S hS hSk ha hR
          rw [hrem] at hS
          rw [w1] at hR
          obtain ⟨u, hu, hu'⟩ := hall S hS hSk ha hR
          rw [hpc] at hu
          rcases List.mem_cons.1 hu with rfl | hu
          · rw [← hu'] at hR
            exact absurd hR w4
          · exact ⟨u, hu, hu'⟩)
      refine ⟨s'', x1, x2, x3, x4, ?_⟩
      rcases x5 with x5 | x5
      · exact Or.inl (x5.trans hrem)
      · right
        rw [hm' s' t2, hrem, ← hm' s hs] at x5
        exact x5
    · have hrem : remaining b s' = remaining b s \ (items c v).toFinset := by
        simp only [remaining, w2, List.toFinset_append]
        rw [sdiff_sdiff_left]; rfl
      have hsub : remaining b s' ⊆ remaining b s := by rw [hrem]; exact Finset.sdiff_subset
      have hReal : ∀ S, Real p t (bzG b) (polyVal (id : Int → Int) s'.f) S → Real p t (bzG b) (polyVal (id : Int → Int) s.f) S :=
        fun S ⟨G, hG, hi⟩ => ⟨G, hG.trans w1, hi⟩
      have hcard : (items c v).toFinset.card = k := by rw [List.toFinset_card_of_nodup (u1.imp fun h => Nat.ne_of_lt h), u2]
      have hmk : s'.m + k = s.m := by
        rw [t2.m, hs.m, hrem, ← hcard]
        exact Finset.card_sdiff_add_card_eq_card u3
      have hlen2 : (pend k c').length ≤ (pend k c1).length := by
        simpa [pending] using w4
      obtain ⟨s'', x1, x2, x3, x4, x5⟩ := ih _ (lt_of_le_of_lt hlen2 hlen1) s' c' rfl t2
        (by
          intro S hS hS0 hR
          exact hmin S (hS.trans hsub) hS0 (hReal S hR)) t3
        (by
          intro u hu
          obtain ⟨h1, h2⟩ := (w3 u).1 hu
          obtain ⟨a1, a2, a3⟩ := hpend u (by rw [hpc]; exact List.mem_cons_of_mem _ h1)
          refine ⟨a1, a2, ?_⟩
          rw [hrem]
          intro x hx
          rw [Finset.mem_sdiff]
          refine ⟨a3 hx, fun hx' => h2 x (List.mem_toFinset.1 hx') (List.mem_toFinset.1 hx)⟩)
        (by
          intro S hS hSk ha hR
          obtain ⟨u, hu, hu'⟩ := hall S (hS.trans hsub) hSk ha (hReal S hR)
          rw [hrem] at hS
          have hdis : ∀ x ∈ items c v, x ∉ u := by
            intro x hx hxu
            have := hS (by rw [← hu']; exact List.mem_toFinset.2 hxu)
            exact (Finset.mem_sdiff.1 this).2 (List.mem_toFinset.2 hx)
          rw [hpc] at hu
          rcases List.mem_cons.1 hu with rfl | hu
          · exfalso
            obtain ⟨x, hx⟩ : ∃ x, x ∈ items c v := List.exists_mem_of_ne_nil _ (by intro e; rw [e] at u2; simp at u2; omega)
            exact hdis x hx hx
          · exact ⟨u, (w3 u).2 ⟨hu, hdis⟩, hu'⟩)
      refine ⟨s'', x1, x2, x3, x4, Or.inr ?_⟩
      rcases x5 with x5 | x5
      · rw [x2.m, x5, ← t2.m]; omega
      · omega


/-- the outer loop -/
theorem bzOuter_spec (N : ℕ) : ∀ (k : ℕ) (s : BzSearch), 1 ≤ k → s.m / 2 + 1 - k = N → SInv b p t root s → MinSets b p t k s →
    ∃ s', bzOuter b b.factors.length k s = some s' ∧ SInv b p t root s' ∧ MinSets b p t k s' ∧
      (2 * k < s.m → MinSets b p t (k + 1) s') ∧
      ∀ S ⊆ remaining b s', S ≠ ∅ → S ≠ remaining b s' → Real p t (bzG b) (polyVal (id : Int → Int) s'.f) S →
        ¬ Real p t (bzG b) (polyVal (id : Int → Int) s'.f) (remaining b s' \ S) := by
  induction N using Nat.strong_induction_on with
  | _ N ih =>
  intro k s hk hN hs hmin
  -- the exit
  have hexit : ∀ k' (s' : BzSearch), SInv b p t root s' → MinSets b p t k' s' → s'.m < 2 * k' →
      ∀ S ⊆ remaining b s', S ≠ ∅ → S ≠ remaining b s' → Real p t (bzG b) (polyVal (id : Int → Int) s'.f) S →
        ¬ Real p t (bzG b) (polyVal (id : Int → Int) s'.f) (remaining b s' \ S) := by
    intro k' s' hs' hmin' hlt S hS hS0 hSA hR hR'
    have h1 := hmin' S hS hS0 hR
    have h2 := hmin' _ Finset.sdiff_subset (by
      intro e
      exact hSA (Finset.Subset.antisymm hS (Finset.sdiff_eq_empty_iff_subset.1 e))) hR'
    have h3 := Finset.card_sdiff_add_card_eq_card hS
    rw [← hs'.m] at h3
    omega
  by_cases hle : k ≤ s.m / 2
  · have hmn : s.m ≤ b.factors.length := by
      rw [hs.m]
      exact (Finset.card_le_card (remaining_sub s)).trans (by simp)
    have hkn : k < b.factors.length := by omega
    have hnew := new_inv b.factors.length k hkn.le
    have hpnew : pending k (Comb.new b.factors.length k) = subsets b.factors.length k := new_pend _ _ hkn
    -- the halved case
    obtain ⟨c1, h1, h2, h3⟩ : ∃ c1, bzHalve b.factors.length k s.m (Comb.new b.factors.length k) = some c1 ∧ CInv b.factors.length k c1 ∧
        ∀ u, u ∈ pending k c1 ↔ u ∈ subsets b.factors.length k ∧ (2 * k = s.m → b.factors.length - 1 ∉ u) := by
      rw [bzHalve]
      split
      · rename_i e
        rw [if_neg (by omega)]
        obtain ⟨c1, h1, h2, h3⟩ := exclude_spec hnew (b.factors.length - 1) (by omega)
        refine ⟨c1, h1, h2, fun u => ?_⟩
        rw [pending, h3]
        change u ∈ (pending k (Comb.new b.factors.length k)).filter _ ↔ _
        rw [hpnew, List.mem_filter]
        simp [e]
      · rename_i e
        refine ⟨_, rfl, hnew, fun u => ?_⟩
        rw [hpnew]
        simp [e]
    obtain ⟨c2, h4, h5, h6, -⟩ := excludeAll_spec s.excluded hs.excl c1 h2
    obtain ⟨s', i1, i2, i3, i4, i5⟩ := bzInner_spec hb hroot hroots hk hkn (fun S => 2 * k = s.m → b.factors.length - 1 ∉ S) _ s c2 rfl hs hmin h5
      (by
        intro u hu
        obtain ⟨a1, a2⟩ := (h6 u).1 hu
        obtain ⟨a3, -⟩ := (h3 u).1 a1
        obtain ⟨a4, a5, a6⟩ := (mem_subsets _ _ _).1 a3
        refine ⟨a5, a4, fun x hx => ?_⟩
        rw [List.mem_toFinset] at hx
        rw [remaining, Finset.mem_sdiff, Finset.mem_range, List.mem_toFinset]
        exact ⟨a6 x hx, fun hx' => a2 x hx' hx⟩)
      (by
        intro S hS hSk ha hR
        refine ⟨S.sort (· ≤ ·), (h6 _).2 ⟨(h3 _).2 ⟨(mem_subsets _ _ _).2 ⟨by simpa using hSk, ?_, ?_⟩, ?_⟩, ?_⟩, by simp⟩
        · exact (Finset.sortedLT_sort S).pairwise
        · intro x hx
          exact Finset.mem_range.1 (remaining_sub s (hS ((Finset.mem_sort _).1 hx)))
        · intro e hx
          exact ha e ((Finset.mem_sort _).1 hx)
        · intro x hx hx'
          have := hS ((Finset.mem_sort _).1 hx')
          rw [remaining, Finset.mem_sdiff, List.mem_toFinset] at this
          exact this.2 hx)
    have hstep : bzOuter b b.factors.length k s = bzOuter b b.factors.length (k + 1) s' := by
      rw [bzOuter, if_pos hle]
      simp only [h1, h4, i1, Option.bind_eq_bind, Option.bind_some]
    have hm' : s'.m ≤ s.m := by
      rcases i5 with e | e
      · rw [i2.m, e, ← hs.m]
      · omega
    rw [hstep]
    by_cases h2k : 2 * k = s.m
    · have hstop : bzOuter b b.factors.length (k + 1) s' = some s' := by
        rw [bzOuter, if_neg (by omega)]
      refine ⟨s', hstop, i2, i3, fun h => absurd h (by omega), ?_⟩
      rcases i5 with e | e
      · intro S hS hS0 hSA hR hR'
        have q1 := i3 S hS hS0 hR
        have q2 := i3 _ Finset.sdiff_subset (by
          intro e
          exact hSA (Finset.Subset.antisymm hS (Finset.sdiff_eq_empty_iff_subset.1 e))) hR'
        have q3 := Finset.card_sdiff_add_card_eq_card hS
        rw [← i2.m] at q3
        have q4 : s'.m = s.m := by rw [i2.m, e, ← hs.m]
        by_cases hin : b.factors.length - 1 ∈ S
        · refine i4 (remaining b s' \ S) Finset.sdiff_subset (by omega) (fun _ hx => ?_) hR'
          exact (Finset.mem_sdiff.1 hx).2 hin
        · exact i4 S hS (by omega) (fun _ => hin) hR
      · exact hexit k s' i2 i3 (by omega)
    · have hmin' : MinSets b p t (k + 1) s' := by
        intro S hS hS0 hR
        have h7 := i3 S hS hS0 hR
        rcases Nat.lt_or_ge k S.card with h | h
        · exact h
        · exact absurd hR (i4 S hS (by omega) (fun e => absurd e h2k))
      obtain ⟨s2, w1, w2, w3, -, w5⟩ := ih (s'.m / 2 + 1 - (k + 1)) (by omega) (k + 1) s' (by omega) rfl i2 hmin'
      exact ⟨s2, w1, w2, fun S hS hS0 hR => (Nat.le_succ k).trans (w3 S hS hS0 hR), fun _ => w3, w5⟩
  · refine ⟨s, by rw [bzOuter, if_neg hle], hs, hmin, fun h => absurd h (by omega), hexit k s hs hmin (by omega)⟩

end

/-- The search terminates without panicking; the result is a factorization into irreducible polynomials of an associate of the
polynomial, and of the polynomial itself when its leading coefficient is positive. -/
theorem BzPrime.factorSubsets_spec {b : BzPrime} {p : ℤ} {t : ℕ} (hb : BzCtx b p t) :
    ∃ r, b.factorSubsets = some r ∧ r.Valid intOps.toFavOps.poly (polyVal (id : Int → Int)) ∧
      Associated (r.denote (polyVal (id : Int → Int))) (bzF b) ∧
      (0 < (bzF b).leadingCoeff → r.denote (polyVal (id : Int → Int)) = bzF b) ∧
      (Irreducible (bzF b) → r.denote (polyVal (id : Int → Int)) = bzF b) ∧
      ((bzF b).leadingCoeff < 0 → AllLinear (bzF b) → Even (bzF b).natDegree → 4 ≤ (bzF b).natDegree →
        r.denote (polyVal (id : Int → Int)) = -bzF b) := by
  have hM : 0 < b.modulus := by rw [hb.modulus]; exact hb.M_pos
  have hFd : 0 < (bzF b).natDegree :=
    lt_of_le_of_lt (Nat.zero_le _) (hb.natDegree_lt (S := ∅) (by simp) (by have := hb.two; simp; omega))
  obtain ⟨dm, root, d1, d2, d3, d4⟩ := DmTest.new_spec b.modulus hM b.poly hFd b.factors (by
    intro g hg
    obtain ⟨i, hi, rfl⟩ := List.mem_iff_getElem.1 hg
    have := hb.mf.pos (Finset.mem_range.2 hi)
    rwa [bzG, List.getD_eq_getElem?_getD, List.getElem?_eq_getElem hi] at this)
  rw [hb.modulus] at d4
  have hF := intOps_models.toFav.poly
  have hone : (Factored.factoredOne intOps.toFavOps.poly).Valid intOps.toFavOps.poly (polyVal (id : Int → Int)) ∧
      (Factored.factoredOne intOps.toFavOps.poly).denote (polyVal (id : Int → Int)) = 1 := by
    have h1 : polyVal (id : Int → Int) (intOps.toFavOps.poly).one = 1 := hF.toDomain.toRing.toSemi.one
    refine ⟨⟨?_, by simp [Factored.factoredOne], by simp [Factored.factoredOne], by simp [Factored.factoredOne], by simp [Factored.factoredOne]⟩, ?_⟩
    · rw [Factored.factoredOne, h1]; exact isUnit_one
    · simp [Factored.denote, Factored.factoredOne, h1]
  obtain ⟨s0, hs0⟩ : ∃ s0 : BzSearch, s0 = ⟨dm, MemStack.new b.factors, Factored.factoredOne intOps.toFavOps.poly, [], b.poly, b.factors.length⟩ := ⟨_, rfl⟩
  have hrem : remaining b s0 = range b.factors.length := by rw [hs0]; simp [remaining]
  have hinv : SInv b p t root s0 := by
    refine { dm := ?_, values := ?_, mem := ?_, mf := ?_, m := ?_, excl := ?_, valid := ?_, prod := ?_, pos := ?_, irr := ?_, neg := ?_ }
    · rw [hs0]; exact d4
    · rw [hs0]; rfl
    · rw [hs0]; exact MemOk.nil
    · rw [hrem, hs0]; exact hb.mf
    · rw [hrem, hs0]; simp
    · rw [hs0]; simp
    · rw [hs0]; exact hone.1
    · rw [hs0]; change _ * bzF b = _; rw [hone.2, one_mul]
    · rw [hs0]; exact id
    · rw [hs0]; exact Or.inl rfl
    · rw [hs0]
      intro hneg _
      change 0 < (-1) ^ ((bzF b).natDegree + (bzF b).natDegree + 1) * (bzF b).leadingCoeff
      rw [Odd.neg_one_pow ⟨(bzF b).natDegree, by ring⟩]
      omega
  obtain ⟨s, o1, hs, -, o3, o2⟩ := bzOuter_spec hb d2 d3 _ 1 s0 le_rfl rfl hinv (by
    intro S _ hS0 _
    exact Finset.card_pos.2 (Finset.nonempty_iff_ne_empty.2 hS0))
  have hred : b.factorSubsets = bzLast s := by
    rw [BzPrime.factorSubsets]
    rw [hs0] at o1
    simp only [d1, intOps_models.newRing b.modulus (by exact hM.ne'), o1, Option.bind_eq_bind, Option.bind_some]
  rw [hred, bzLast]
  split
  · rename_i hm
    have hne : remaining b s ≠ ∅ := by
      intro e
      rw [hs.m, e] at hm; simp at hm
    have hirr : Irreducible (polyVal (id : Int → Int) s.f) :=
      hs.irreducible hb (dvd_refl _) (Finset.Subset.refl _) hs.mf.cong hne o2
    obtain ⟨irr, i1, i2, i3⟩ := Factored.factoredIrreducible_spec hF s.f hirr
    obtain ⟨fac, f1, f2, f3⟩ := Factored.mul_spec hF s.factored irr hs.valid.fav i2.fav
    have hfin : fac.denote (polyVal (id : Int → Int)) = bzF b := by rw [f2, i3, hs.prod]
    refine ⟨fac, by simp only [i1, f1, Option.bind_eq_bind, Option.bind_some], f3 hs.valid i2, ?_, fun _ => hfin, fun _ => hfin, ?_⟩
    · rw [hfin]
    · intro hneg hlin _ h4
      exfalso
      have h1 := hs.mf.card_of_linear (hs.prim hb) (fun q hq hd => hlin q hq (hd.trans hs.dvd))
      have h2 := hlin _ hirr hs.dvd
      have h3 := hb.mf.card_of_linear hb.prim hlin
      rw [card_range] at h3
      have h5 := o3 (by rw [hs0]; change 2 * 1 < b.factors.length; omega) _ (Finset.Subset.refl _) hne ⟨_, dvd_rfl, hs.mf.cong⟩
      omega
  · rename_i hm
    have he : remaining b s = ∅ := by
      rw [← Finset.card_eq_zero, ← hs.m]; omega
    have hd : (polyVal (id : Int → Int) s.f).natDegree = 0 := by
      rw [hs.mf.natDegree_of_is (Finset.Subset.refl _) hs.mf.lc hs.mf.cong, he]; rfl
    have hu := hs.unit hb (dvd_refl _) hd
    refine ⟨s.factored, rfl, hs.valid, ?_, ?_, ?_, ?_⟩
    · rw [← hs.prod]
      exact (associated_mul_unit_right _ _ hu)
    · intro hpos
      have h1 := hs.pos hpos
      have h2 : polyVal (id : Int → Int) s.f = 1 := by
        rw [eq_C_of_natDegree_eq_zero hd] at hu h1 ⊢
        rw [leadingCoeff_C] at h1
        rcases Int.isUnit_iff.1 (isUnit_C.1 hu) with e | e
        · rw [e]; rfl
        · omega
      have h3 := hs.prod
      rw [h2, mul_one] at h3
      exact h3
    · intro hirrF
      exfalso
      rcases hs.irr with e | e
      · rw [remaining, e] at he
        have h2 := congrArg Finset.card he
        simp at h2
        have := hb.two
        rw [h2] at this
        simp at this
      · exact e hirrF
    · intro hneg hlin hev _
      have h1 := hs.neg hneg hlin
      have h2 : polyVal (id : Int → Int) s.f = -1 := by
        rw [hd, add_zero, pow_succ, hev.neg_one_pow] at h1
        rw [eq_C_of_natDegree_eq_zero hd] at hu h1 ⊢
        rw [leadingCoeff_C] at h1
        rcases Int.isUnit_iff.1 (isUnit_C.1 hu) with e | e
        · omega
        · rw [e]; simp
      have h3 := hs.prod
      rw [h2, mul_neg, mul_one] at h3
      rw [← h3, neg_neg]

end Verif.Rings
