import Verif.Proofs.PadicArith
import Verif.Proofs.PadicEx
import Verif.Proofs.PadicWrong

/-!
# Rational sums and products are dropped by the search; a criterion for the search to succeed
-/

namespace Verif.Padic

open Polynomial Verif.Rings Verif.RealRoots

section
variable {p : ℕ} [hp : Fact p.Prime]

theorem mapM_out {α β : Type} {f : α → Option β} {l : List α} {m : List β} (h : l.mapM f = some m) {b : β} (hb : b ∈ m) : ∃ a ∈ l, f a = some b := by
  induction l generalizing m with
  | nil => rw [List.mapM_nil] at h; obtain rfl := Option.some.inj h; simp at hb
  | cons a l ih =>
    rw [List.mapM_cons] at h
    simp only [Option.bind_eq_bind, Option.bind_eq_some_iff] at h
    obtain ⟨c, h1, m, h2, h3⟩ := h
    obtain rfl := Option.some.inj h3
    rcases List.mem_cons.1 hb with e | e
    · exact ⟨a, List.mem_cons_self, e ▸ h1⟩
    · obtain ⟨a', a1, a2⟩ := ih h2 e
      exact ⟨a', List.mem_cons_of_mem _ a1, a2⟩

/-- A rational candidate that is kept is the centre of the ball. -/
theorem keepOne_rat {fac : Fac} {dbg : Bool} {k : ℤ} {s : IBall} {a : PAlg} {q : ℚ} (h : keepOne dbg fac p k s a = some (some (.rat q))) :
    a = .rat q ∧ s.c = q := by
  cases a with
  | rat b =>
    simp only [keepOne, PAlg.refine, PAlg.ball, Option.bind_eq_bind, Option.bind_some, Option.bind_eq_some_iff] at h
    obtain ⟨o, o1, o2⟩ := h
    cases o with
    | false => simp at o2
    | true =>
      simp only [if_true, Option.some.injEq, PAlg.rat.injEq] at o2
      subst o2
      obtain ⟨o, e1, e2⟩ := overlap_iff (p := p) ⟨b, .infinity⟩ s
      rw [e1, Option.some_inj] at o1
      subst o1
      have := (e2.1 rfl).1
      simp only [Valu.norm] at this
      have h0 := norm_le_zero_iff.1 this
      refine ⟨rfl, ?_⟩
      have : (b : ℚ_[p]) = (s.c : ℚ_[p]) := by linear_combination h0
      exact (Rat.cast_injective this).symm
  | root r =>
    simp only [keepOne, PAlg.refine, Option.bind_eq_bind, Option.bind_eq_some_iff, Option.map_eq_some_iff] at h
    obtain ⟨_, ⟨r', -, rfl⟩, o, -, o2⟩ := h
    split at o2 <;> simp at o2

theorem keepCandidates_rat {fac : Fac} {dbg : Bool} {k : ℤ} {s : IBall} {l l' : List PAlg} (h : keepCandidates dbg fac p k s l = some l') {q : ℚ}
    (hq : .rat q ∈ l') : .rat q ∈ l ∧ s.c = q := by
  rw [keepCandidates_eq, Option.map_eq_some_iff] at h
  obtain ⟨m, m1, rfl⟩ := h
  simp only [List.mem_filterMap, id, exists_eq_right] at hq
  obtain ⟨a, a1, a2⟩ := mapM_out m1 hq
  obtain ⟨rfl, e⟩ := keepOne_rat a2
  exact ⟨a1, e⟩

theorem candLoop_rat {σ : Type} {fac : Fac} {dbg : Bool} {gen : ℤ → σ → Option (Option IBall × σ)} {k : ℤ} {st : σ} {l l' : List PAlg}
    (h : candLoop dbg fac p gen k st l = some l') {q : ℚ} (hq : .rat q ∈ l') : .rat q ∈ l := by
  revert hq
  refine candLoop.partial_correctness dbg fac p gen (fun _ _ l l' => .rat q ∈ l' → .rat q ∈ l) ?_ k st l l' h
  intro rec ih k st l r hr hq
  split at hr
  · simp only [Option.bind_eq_bind, Option.bind_eq_some_iff] at hr
    obtain ⟨g, -, e⟩ := hr
    split at e
    · rw [Option.bind_eq_some_iff] at e
      obtain ⟨l1, e1, e2⟩ := e
      exact (keepCandidates_rat e1 (ih _ _ _ _ e2 hq)).1
    · exact ih _ _ _ _ e hq
  · rw [Option.some_inj] at hr
    exact hr ▸ hq

/-- With two candidates, a rational candidate is lost if it is not the centre of the first ball. -/
theorem candLoop_drop {σ : Type} {fac : Fac} {dbg : Bool} {gen : ℤ → σ → Option (Option IBall × σ)} {k : ℤ} {st st' : σ} {l l' : List PAlg} {s : IBall}
    (hl : 1 < l.length) (hg : gen k st = some (some s, st')) {q : ℚ} (hs : s.c ≠ q) (h : candLoop dbg fac p gen k st l = some l') : .rat q ∉ l' := by
  intro hq
  rw [candLoop, if_pos hl, hg] at h
  simp only [Option.bind_eq_bind, Option.bind_some, Option.bind_eq_some_iff] at h
  obtain ⟨l1, e1, e2⟩ := h
  exact hs (keepCandidates_rat e1 (candLoop_rat e2 hq)).2

theorem is_rat {z : PAlg} {q : ℚ} (h : z.Is (q : ℚ_[p])) : z = .rat q := by
  cases z with
  | rat a => have : (q : ℚ_[p]) = a := h; rw [Rat.cast_injective this]
  | root r => exact absurd rfl (PRoot.Is.irrational h q)

theorem single_mem {l : List PAlg} {z : PAlg} (h : single l = some z) : z ∈ l := by
  match l, h with
  | [r], h => simp [single] at h; simp [h]

/-- Two roots make two candidates. -/
theorem two_candidates {fac : Fac} (hfac : FacOk fac) {f : List Int} (hf : (ipoly f).IsPrimitive) {a b : ℚ_[p]} (hab : a ≠ b) (ha : (pv p f).eval a = 0)
    (hb : (pv p f).eval b = 0) {l : List PAlg} (h : allPadicRoots fac p f = some l) : 1 < l.length := by
  obtain ⟨l', xs, h1, h2, h3, -⟩ := allPadicRoots_spec (p := p) hfac hf
  rw [h, Option.some_inj] at h1
  subst h1
  rw [h2.length_eq]
  have hr : ∀ c : ℚ_[p], (pv p f).eval c = 0 → c ∈ xs := by
    intro c hc
    have : c ∈ (pv p f).roots := (mem_roots ((Polynomial.map_ne_zero_iff (RingHom.injective_int _)).2 hf.ne_zero)).2 hc
    rw [← h3] at this
    exact this
  have h1 := hr a ha
  have h2 := hr b hb
  rcases xs with _ | ⟨c, _ | ⟨d, xs⟩⟩
  · simp at h1
  · exact absurd ((List.mem_singleton.1 h1).trans (List.mem_singleton.1 h2).symm) hab
  · simp

/-- addition with a rational sum -/
theorem PRoot.add_drop {fac : Fac} (hfac : FacOk fac) (dbg : Bool) {sumPoly : List Int → List Int → Option (List Int)} (hsum : OpPolyExact (· + ·) sumPoly)
    {r s : PRoot} {x y x' y' : ℚ_[p]} (hx : r.Is x) (hy : s.Is y) (hx' : (pv p r.poly).eval x' = 0) (hy' : (pv p s.poly).eval y' = 0)
    (hne : x' + y' ≠ x + y) (hr0 : 0 ≤ r.approx.v) (hs0 : 0 ≤ s.approx.v) {q : ℚ} (hq : x + y = (q : ℚ_[p])) (hc : r.approx.a + s.approx.a ≠ q) {z : PAlg}
    (h : r.add dbg fac p sumPoly s = some z) : ¬ z.Is (x + y) := by
  rw [hq]
  intro hz
  obtain rfl := is_rat hz
  obtain ⟨f, f1, f2, f3, f4⟩ := sumPoly_root (p := p) hsum hx.irreducible.ne_zero hy.irreducible.ne_zero hx.isolates.root hy.isolates.root
  obtain ⟨g, g1, -, -, g4⟩ := sumPoly_root (p := p) hsum hx.irreducible.ne_zero hy.irreducible.ne_zero hx' hy'
  rw [f1, Option.some_inj] at g1
  subst g1
  simp only [PRoot.add, f1, Option.bind_eq_bind, Option.bind_some, Option.bind_eq_some_iff] at h
  obtain ⟨l, l1, l', l2, l3⟩ := h
  refine candLoop_drop (two_candidates hfac f2 hne g4 f4 l1) (s := ⟨r.approx.a + s.approx.a, (Valu.finite r.approx.v).min (.finite s.approx.v)⟩)
    (st' := (r, s)) ?_ hc l2 (single_mem l3)
  · have e1 : r.refine dbg fac p 0 = some r := by rw [PRoot.refine, if_neg (by omega)]
    have e2 : s.refine dbg fac p 0 = some s := by rw [PRoot.refine, if_neg (by omega)]
    simp only [sumBall, e1, e2, Option.bind_eq_bind, Option.bind_some, PRoot.ball]

/-- multiplication with a rational product -/
theorem PRoot.mul_drop {fac : Fac} (hfac : FacOk fac) (dbg : Bool) {prodPoly : List Int → List Int → Option (List Int)} (hprod : OpPolyExact (· * ·) prodPoly)
    {r s : PRoot} {x y x' y' : ℚ_[p]} (hx : r.Is x) (hy : s.Is y) (hx' : (pv p r.poly).eval x' = 0) (hy' : (pv p s.poly).eval y' = 0)
    (hne : x' * y' ≠ x * y) (hr0 : 0 ≤ r.approx.v) (hs0 : 0 ≤ s.approx.v) {q : ℚ} (hq : x * y = (q : ℚ_[p])) (hc : r.approx.a * s.approx.a ≠ q) {z : PAlg}
    (h : r.mul dbg fac p prodPoly s = some z) : ¬ z.Is (x * y) := by
  rw [hq]
  intro hz
  obtain rfl := is_rat hz
  obtain ⟨f, f1, f2, f3, f4⟩ := prodPoly_root (p := p) hprod hx.irreducible.ne_zero hy.irreducible.ne_zero hx.isolates.root hy.isolates.root
  obtain ⟨g, g1, -, -, g4⟩ := prodPoly_root (p := p) hprod hx.irreducible.ne_zero hy.irreducible.ne_zero hx' hy'
  rw [f1, Option.some_inj] at g1
  subst g1
  simp only [PRoot.mul, f1, Option.bind_eq_bind, Option.bind_some, Option.bind_eq_some_iff] at h
  obtain ⟨l, l1, l', l2, l3⟩ := h
  obtain ⟨vx, v1, -⟩ := ratVal_norm (p := p) r.approx.a
  obtain ⟨vy, v2, -⟩ := ratVal_norm (p := p) s.approx.a
  refine candLoop_drop (two_candidates hfac f2 hne g4 f4 l1) (s := ⟨r.approx.a * s.approx.a,
    (vy.mul (.finite r.approx.v)).min (vx.mul (.finite s.approx.v))⟩) (st' := (r, s)) ?_ hc l2 (single_mem l3)
  · have e1 : r.refine dbg fac p 0 = some r := by rw [PRoot.refine, if_neg (by omega)]
    have e2 : s.refine dbg fac p 0 = some s := by rw [PRoot.refine, if_neg (by omega)]
    simp only [prodBall, e1, e2, Option.bind_eq_bind, Option.bind_some, PRoot.ball, v1, v2]

/-- The balls of the candidates come from `isolate`. -/
theorem mem_allPadicRoots {fac : Fac} {f : List Int} {l : List PAlg} (h : allPadicRoots fac p f = some l) {r : PRoot} (hr : .root r ∈ l) :
    ∃ bs, isolate fac p r.poly = some bs ∧ r.approx ∈ bs := by
  simp only [allPadicRoots, Option.bind_eq_bind, Option.bind_eq_some_iff] at h
  obtain ⟨_, -, pf, -, pf, -, ls, h1, h2⟩ := h
  rw [Option.some_inj] at h2
  subst h2
  obtain ⟨m, m1, m2⟩ := List.mem_flatten.1 hr
  obtain ⟨q, q1, q2⟩ := mapM_out h1 m1
  simp only [factorRoots, Option.map_eq_some_iff] at q2
  obtain ⟨n, n1, rfl⟩ := q2
  obtain ⟨a, a1, a2⟩ := List.mem_flatMap.1 m2
  obtain rfl := List.eq_of_mem_replicate a2
  simp only [rootsIrreducible, Option.bind_eq_bind, Option.bind_eq_some_iff] at n1
  obtain ⟨_, -, _, -, d, -, n1⟩ := n1
  split at n1
  · simp only [Option.bind_eq_some_iff] at n1
    obtain ⟨_, -, n1⟩ := n1
    rw [Option.some_inj] at n1
    subst n1
    simp at a1
  · simp only [Option.bind_eq_some_iff] at n1
    obtain ⟨bs, b1, n1⟩ := n1
    rw [Option.some_inj] at n1
    subst n1
    obtain ⟨b, b2, b3⟩ := List.mem_map.1 a1
    obtain rfl := PAlg.root.inj b3
    exact ⟨bs, b1, b2⟩

/-- A criterion for the search: the roots of the polynomial are integral, and `w` is the root of an irreducible polynomial whose balls all
satisfy the condition. -/
theorem searchOk_of {fac : Fac} (hfac : FacOk fac) {dbg : Bool} {f : List Int} (hf : (ipoly f).IsPrimitive) {w : ℚ_[p]} {ok : ℤ → Prop}
    (hint : ∀ z : ℚ_[p], (pv p f).eval z = 0 → ‖z‖ ≤ 1) {g : List Int} (hg : PolyOk g)
    (hw : (pv p g).eval w = 0) {bs : List Ball} (hbs : isolate fac p g = some bs) (hok : ∀ b ∈ bs, ok b.v) : SearchOk dbg fac f w ok := by
  intro l hl
  right
  obtain ⟨l', xs, h1, h2, h3, h4⟩ := allPadicRoots_spec (p := p) hfac hf
  rw [hl, Option.some_inj] at h1
  subst h1
  intro c hc z hz
  cases c with
  | rat q =>
    refine ⟨trivial, fun e => ?_⟩
    subst e
    obtain rfl : z = (q : ℚ_[p]) := hz
    exact absurd hw (irr_no_rat hg.irreducible hg.degree q)
  | root r =>
    refine ⟨fun _ => deriv_integral _ (hint z ?_), fun e => ?_⟩
    · have : ∃ x ∈ xs, r.Is x := by
        clear h3 hl h4
        induction h2 with
        | nil => simp at hc
        | cons k1 k2 ih =>
          rcases List.mem_cons.1 hc with e | e
          · subst e; exact ⟨_, List.mem_cons_self, k1⟩
          · obtain ⟨x, x1, x2⟩ := ih e
            exact ⟨x, List.mem_cons_of_mem _ x1, x2⟩
      obtain ⟨x, x1, x2⟩ := this
      have hzx : z = x := x2.isolates.unique z hz.isolates.root hz.isolates.mem
      have : x ∈ (pv p f).roots := by rw [← h3]; exact x1
      rw [hzx]
      exact (mem_roots'.1 this).2
    · subst e
      obtain ⟨bs', b1, b2⟩ := mem_allPadicRoots hl hc
      have hpos := h4 r hc
      have he := eq_of_associated (eq_of_common_root hz.reduced hg.reduced hz.irreducible hg.irreducible hz.degree hg.degree hz.isolates.root hw) hpos hg.positive
      have : r.poly = g := poly_eq_of_val hz.reduced hg.reduced he hz.irreducible.ne_zero
      rw [this, hbs, Option.some_inj] at b1
      subst b1
      exact ⟨r, rfl, hok _ b2⟩

end

end Verif.Padic
