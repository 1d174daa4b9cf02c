import Verif.Proofs.RealAlgWrong
import Mathlib.Tactic.ComputeDegree
import Mathlib.Algebra.Polynomial.SpecificDegree

/-!
# The square of `√122 - 11`
-/

namespace Verif.RealRoots

open Polynomial Verif.Rings

theorem ipoly_quad (a b c : Int) : ipoly [a, b, c] = C c * X ^ 2 + C b * X + C a := by
  simp only [polyVal, id]
  ring

theorem rv_quad (a b c : Int) (y : ℝ) : (rv [a, b, c]).eval y = c * y ^ 2 + b * y + a := by
  rw [rv_cons, rv_cons, rv_cons, rv_nil]
  simp only [eval_add, eval_mul, eval_C, eval_X, eval_zero]
  ring

theorem quad_natDegree (a b : Int) {c : Int} (hc : c ≠ 0) : (ipoly [a, b, c]).natDegree = 2 := by
  rw [ipoly_quad]; exact natDegree_quadratic hc

theorem quad_lead (a b : Int) {c : Int} (hc : c ≠ 0) : (ipoly [a, b, c]).leadingCoeff = c := by
  rw [ipoly_quad]; exact leadingCoeff_quadratic hc

/-- A monic quadratic polynomial without integer roots. -/
theorem quad_irr {a b : Int} (h : ∀ y : Int, y ^ 2 + b * y + a ≠ 0) : Irreducible (ipoly [a, b, 1]) := by
  have hm : (ipoly [a, b, 1]).Monic := quad_lead a b one_ne_zero
  rw [Monic.irreducible_iff_roots_eq_zero_of_degree_le_three hm (by rw [quad_natDegree a b one_ne_zero]) (by rw [quad_natDegree a b one_ne_zero]; norm_num)]
  rw [Multiset.eq_zero_iff_forall_notMem]
  intro y hy
  have := (mem_roots'.1 hy).2
  rw [IsRoot, ipoly_quad] at this
  simp at this
  exact h y (by linarith)

theorem quad_ok {a b : Int} (h : ∀ y : Int, y ^ 2 + b * y + a ≠ 0) : PolyOk [a, b, 1] :=
  ⟨by intro c hc; simp at hc; rw [← hc]; exact one_ne_zero, quad_irr h, by rw [quad_lead a b one_ne_zero]; norm_num,
    by rw [quad_natDegree a b one_ne_zero]⟩

theorem no_sqrt122 (y : Int) : y ^ 2 + 0 * y + -122 ≠ 0 := by
  intro h
  have h1 : y ^ 2 = 122 := by linarith
  have h2 : y < 12 := by nlinarith
  have h3 : -12 < y := by nlinarith
  interval_cases y <;> simp at h1

theorem no_int486 (y : Int) : y ^ 2 + -486 * y + 1 ≠ 0 := by
  intro h
  have h1 : y * (486 - y) = 1 := by linarith
  rcases Int.eq_one_or_neg_one_of_mul_eq_one h1 with rfl | rfl <;> norm_num at h1

theorem quad_primitive {a b c : Int} (h : Int.gcd a b = 1) : (ipoly [a, b, c]).IsPrimitive := by
  intro r hr
  rw [C_dvd_iff_dvd_coeff] at hr
  have h0 := hr 0
  have h1 := hr 1
  rw [coeff_polyVal (id : Int → Int) 0 rfl] at h0 h1
  have h2 := Int.dvd_coe_gcd h0 h1
  simp only [id, List.getD_cons_zero, List.getD_cons_succ, h] at h2
  exact isUnit_of_dvd_one (by simpa using h2)

/-- The isolating intervals of `x² - 122`. -/
theorem roots122 : allRootsSquarefree [-122, 0, 1] = some ⟨[-122, 0, 1], [.real (-124) 0 false, .real 0 124 true]⟩ := by
  have hok := quad_ok no_sqrt122
  refine allRoots_concrete (t := [7627, -30752, 30752]) (m := 124) (isol := [(0, 1, true), (1, 1, true)])
    (rv_ne_zero.2 hok.irreducible.ne_zero) (irr_squarefree_real hok.irreducible) (by decide +kernel) (by decide +kernel) (by decide +kernel)
    (by decide +kernel) ?_ ?_ (by decide +kernel)
  · refine transPoly_eq (c0 := 2) (by norm_num) (quad_primitive (by decide +kernel)) ?_ (by decide +kernel)
    intro c hc; simp at hc; rw [← hc]; decide
  · rw [caLoop_two (q' := [61016, -123008, 61504]) (by decide +kernel) (by decide +kernel) (by decide +kernel)]
    rw [caLoop_one (by decide +kernel) (by decide +kernel), caLoop_one (by decide +kernel) (by decide +kernel), caLoop]
    rfl

/-- The isolating intervals of `x² - 486 x + 1`. -/
theorem roots486 : allRootsSquarefree [1, -486, 1] = some ⟨[1, -486, 1], [.real 0 244 false, .real 244 488 true]⟩ := by
  have hok := quad_ok no_int486
  refine allRoots_concrete (t := [475313, -1426912, 952576]) (m := 488) (isol := [(2, 2, true), (3, 2, true)])
    (rv_ne_zero.2 hok.irreducible.ne_zero) (irr_squarefree_real hok.irreducible) (by decide +kernel) (by decide +kernel) (by decide +kernel)
    (by decide +kernel) ?_ ?_ (by decide +kernel)
  · refine transPoly_eq (c0 := 1) (by norm_num) (quad_primitive (by decide +kernel)) ?_ (by decide +kernel)
    intro c hc; simp at hc; rw [← hc]; decide
  · rw [caLoop_two (q' := [3802504, -5707648, 1905152]) (by decide +kernel) (by decide +kernel) (by decide +kernel)]
    rw [caLoop_zero (by decide +kernel) (by decide +kernel)]
    rw [caLoop_two (q' := [64, -7589376, 3810304]) (by decide +kernel) (by decide +kernel) (by decide +kernel)]
    rw [caLoop_one (by decide +kernel) (by decide +kernel), caLoop_one (by decide +kernel) (by decide +kernel), caLoop]
    rfl

theorem abs_root {m y : ℝ} (hm : 0 ≤ m) (hy : 0 ≤ y) (h : y ^ 2 = m) : y = Real.sqrt m := by
  rw [← h, Real.sqrt_sq hy]

/-- The positive root of `x² - m`, as `all_real_roots` gives it for some bound. -/
theorem sqrt_is {m : Int} (hm : 1 < m) (hirr : ∀ y : Int, y ^ 2 + 0 * y + -m ≠ 0) {b : ℚ} (hb0 : 0 < b) (hb : (m : ℚ) < b ^ 2) :
    ARoot.Is ⟨[-m, 0, 1], 0, b, some 0, none, true⟩ (Real.sqrt m) := by
  have hok := quad_ok hirr
  have hm' : (0 : ℝ) < m := by exact_mod_cast (by omega : 0 < m)
  have hb' : (m : ℝ) < (b : ℝ) ^ 2 := by exact_mod_cast hb
  have hb0' : (0 : ℝ) < b := by exact_mod_cast hb0
  have hs := Real.sq_sqrt hm'.le
  have key : ∀ y : ℝ, 0 ≤ y → (rv [-m, 0, 1]).eval y = 0 → y = Real.sqrt m := by
    intro y hy e
    rw [rv_quad] at e
    push_cast at e
    exact abs_root hm'.le hy (by linarith)
  have hpos : (0 : ℝ) < Real.sqrt m := Real.sqrt_pos.2 hm'
  refine ⟨hok.reduced, hok.irreducible, hok.positive, hok.degree, ⟨by simpa using hpos, ?_, ?_, ?_, ?_⟩, ⟨?_, by simp⟩, ?_⟩
  · change Real.sqrt m < (b : ℝ)
    rw [Real.sqrt_lt' hb0']; exact hb'
  · rw [rv_quad]; push_cast; linarith
  · intro y h1 _ h3
    exact key y (by simpa using h1) h3
  · simp only [if_true]
    rw [rv_quad, rv_quad]
    push_cast
    constructor <;> nlinarith
  · intro a ha
    simp only [Option.some.injEq] at ha
    subst ha
    simpa using hpos
  · intro y h1 h2
    exact key y (by have := h2.1 0 rfl; simpa using this.le) h1

/-- `√122`, as `all_real_roots` of `x² - 122` gives it. -/
def sqrt122 : ARoot := ⟨[-122, 0, 1], 0, 124, some 0, none, true⟩

/-- `√122 - 11`, as the addition gives it. -/
def sqrt122m11 : ARoot := ⟨[-1, 22, 1], -11, 113, some (-11), none, true⟩

theorem sqrt122_is : sqrt122.Is (Real.sqrt 122) := by
  have := sqrt_is (m := 122) (by norm_num) no_sqrt122 (b := 124) (by norm_num) (by norm_num)
  simpa [sqrt122] using this

/-- `all_real_roots` of `x² - 122`. -/
theorem roots122_get : (SqRoots.mk [-122, 0, 1] [.real (-124) 0 false, .real 0 124 true]).rootAt 1 = some (.real sqrt122) := by
  simp [SqRoots.rootAt, SqRoots.wide, assertThat, boundsLt, ivUpper, sqrt122]

theorem add122 {fac : Fac} (hf : FacOk fac) : sqrt122.addRat fac (-11) = some sqrt122m11 := by
  obtain ⟨y, y1, -⟩ := ARoot.addRat_spec hf sqrt122_is (-11)
  rw [y1]
  obtain ⟨c, e⟩ := fof_eq (p := ratOps.polyCompose (sqrt122.poly.map fun c : Int => (c : ℚ)) [- -11, 1]) (c0 := 1) (q0 := [-1, 22, 1]) (by norm_num)
    (quad_primitive (by decide +kernel)) (by intro c hc; simp at hc; rw [← hc]; decide) (by decide +kernel)
  unfold ARoot.addRat at y1
  simp only [e, Option.bind_eq_bind, Option.bind_some] at y1
  unfold ARoot.checked at y1
  simp only [Option.bind_eq_bind, Option.bind_eq_some_iff] at y1
  obtain ⟨-, -, -, -, h⟩ := y1
  rw [← h]
  simp only [sqrt122, sqrt122m11, Option.map_some, Option.map_none, Option.some.injEq, ARoot.mk.injEq, true_and, and_true]
  norm_num

theorem sqrt122m11_is {fac : Fac} (hf : FacOk fac) : sqrt122m11.Is (Real.sqrt 122 - 11) := by
  obtain ⟨y, y1, y2⟩ := ARoot.addRat_spec hf sqrt122_is (-11)
  rw [add122 hf] at y1
  cases y1
  have : Real.sqrt 122 + ((-11 : ℚ) : ℝ) = Real.sqrt 122 - 11 := by push_cast; ring
  rwa [this] at y2

theorem sqrt122_lo : (11.04 : ℝ) < Real.sqrt 122 := by
  rw [Real.lt_sqrt (by norm_num)]; norm_num
theorem sqrt122_hi : Real.sqrt 122 < 11.05 := by
  rw [Real.sqrt_lt' (by norm_num)]; norm_num

/-- The first three intervals for the product. -/
theorem gen122 {s : ℚ → ℚ → ℚ} (hs : SimplestOk s) {fac : Fac} (hf : FacOk fac) :
    prodGen s sqrt122m11 sqrt122m11 0 = some (121, 12769) ∧
    (∃ t : ℚ, prodGen s sqrt122m11 sqrt122m11 1 = some (121, t) ∧ 488 < t) ∧ ∃ t : ℚ, prodGen s sqrt122m11 sqrt122m11 2 = some (121, t) := by
  have h0 := sqrt122m11_is hf
  have hlo := sqrt122_lo
  have hhi := sqrt122_hi
  obtain ⟨y, y1, y2, y3, y4⟩ := ARoot.refine_left hs h0 (by simp only [sqrt122m11]; push_cast; linarith)
  have y3' : y.ta = -11 := y3
  have y4' : (-11 : ℚ) + (113 - -11) / 3 < y.tb := y4
  obtain ⟨z, z1, z2, z3, z4⟩ := ARoot.refine_left hs y2 (by
    rw [y3']
    have : ((-11 + (113 - -11) / 3 : ℚ) : ℝ) < y.tb := by exact_mod_cast y4'
    push_cast at this ⊢
    linarith)
  have n1 : sqrt122m11.refineN s 1 = some y := by
    simp only [ARoot.refineN, Option.bind_eq_bind, Option.bind_some, y1]
  have n2 : sqrt122m11.refineN s 2 = some z := by
    rw [ARoot.refineN, n1]
    simp only [Option.bind_eq_bind, Option.bind_some, z1]
  refine ⟨by simp only [prodGen, ARoot.refineN, Option.bind_eq_bind, Option.bind_some, sqrt122m11]; norm_num, ⟨y.tb * y.tb, ?_, by nlinarith⟩, z.tb * z.tb, ?_⟩
  · simp only [prodGen, n1, Option.bind_eq_bind, Option.bind_some, y3']; norm_num
  · simp only [prodGen, n2, Option.bind_eq_bind, Option.bind_some, z3, y3']; norm_num

theorem keepRoot_real {groups : List SqRoots} {ij : Nat × Nat} {R : SqRoots} {a b : ℚ} {d : Bool} (h1 : groups[ij.1]? = some R)
    (h2 : R.ivs[ij.2]? = some (.real a b d)) (t : ℚ × ℚ) : keepRoot groups t ij = (decide (a < t.2) && decide (t.1 < b)) := by
  unfold keepRoot
  simp only [h1, Option.bind_some, h2, overlaps]

/-- An interval of an irrational root is not a rational number. -/
theorem isolates_real {p : List Int} (hp : PolyOk p) {iv : RootIv} {ρ : ℝ} (h : iv.Isolates (rv p) ρ) : ∃ a b d, iv = .real a b d := by
  cases iv with
  | real a b d => exact ⟨a, b, d, rfl⟩
  | rational q =>
    exfalso
    obtain ⟨rfl, h2⟩ := h
    exact irr_no_rat hp.irreducible hp.degree q h2

/-- The product of `√122 - 11` with itself is never found. -/
theorem identify122 {s : ℚ → ℚ → ℚ} (hs : SimplestOk s) {fac : Fac} (hf : FacOk fac) {P : List Int} (h0 : rv P ≠ 0) {z : RealAlg}
    (h : identify s fac P (prodGen s sqrt122m11 sqrt122m11) = some z) : ¬ z.Is ((Real.sqrt 122 - 11) ^ 2) := by
  intro hz
  have hlo := sqrt122_lo
  have hhi := sqrt122_hi
  have hsq : Real.sqrt 122 ^ 2 = 122 := Real.sq_sqrt (by norm_num)
  obtain ⟨groups, rss, g', i, j, rs, ρ, hall, hgr, hloop, hrs, hρ, hzρ⟩ := identify_some hs hf h0 h
  have hργ : ρ = (Real.sqrt 122 - 11) ^ 2 := hzρ.inj hz
  obtain ⟨hi, rfl⟩ := List.getElem?_eq_some_iff.1 hrs
  obtain ⟨hj, rfl⟩ := List.getElem?_eq_some_iff.1 hρ
  have hig : i < groups.length := hall.length_eq ▸ hi
  have hA := (List.forall₂_iff_get.1 hall).2 i hig hi
  simp only [List.get_eq_getElem] at hA
  obtain ⟨fo, hrun⟩ := hgr groups[i] (List.getElem_mem hig)
  have hok := quad_ok no_int486
  have hroot : (rv groups[i].poly).eval ((Real.sqrt 122 - 11) ^ 2) = 0 := by
    rw [hA.all, ← hργ]; exact List.getElem_mem hj
  have hpoly : groups[i].poly = [1, -486, 1] := by
    refine poly_eq_of_val fo.reduced hok.reduced (irr_eq fo.irreducible hok.irreducible (natDegree_pos_of_root fo.irreducible.ne_zero hroot)
      (by have := hok.degree; omega) fo.positive hok.positive (r := (Real.sqrt 122 - 11) ^ 2) ?_ ?_) fo.irreducible.ne_zero
    · rw [← rv_eq]; exact hroot
    · rw [← rv_eq, rv_quad]; push_cast; nlinarith [hsq]
  rw [hpoly, roots486] at hrun
  have hR : groups[i] = ⟨[1, -486, 1], [.real 0 244 false, .real 244 488 true]⟩ := (Option.some.inj hrun).symm
  have hR? : groups[i]? = some ⟨[1, -486, 1], [.real 0 244 false, .real 244 488 true]⟩ := by rw [List.getElem?_eq_getElem hig, hR]
  have hlen : rss[i].length = 2 := by rw [← hA.isolates.isolates.length_eq, hR]; rfl
  -- the two roots
  have hl0 : 0 < rss[i].length := by omega
  have hl1 : 1 < rss[i].length := by omega
  have hI := hA.isolates.isolates
  rw [hR] at hI
  have hI0 := (List.forall₂_iff_get.1 hI).2 0 (by simp) hl0
  have hI1 := (List.forall₂_iff_get.1 hI).2 1 (by simp) hl1
  simp only [List.get_eq_getElem, List.getElem_cons_zero, List.getElem_cons_succ] at hI0 hI1
  have hj0 : j = 0 := by
    by_contra hne
    have : j = 1 := by omega
    subst this
    have h1 := hI1.1
    rw [hργ] at h1
    push_cast at h1
    nlinarith
  subst hj0
  have hr1 : (244 : ℝ) < rss[i][1] ∧ rss[i][1] < 488 := by
    have := hI1.1; have := hI1.2.1; push_cast at *; constructor <;> assumption
  have hbig : ∀ kl : Nat × Nat, kl = (i, 1) → ∀ (gs : List SqRoots), List.Forall₂ SqRoots.All gs rss → (∃ w, HasWidth gs kl w) → gs.map (·.poly) = groups.map (·.poly) →
      ∀ t : ℚ, 488 < t → keepRoot gs (121, t) kl = true := by
    rintro kl rfl gs hgs ⟨w, hw⟩ hps t ht
    obtain ⟨R, iv, rs', σ, k1, k2, -, k4, k5, k6⟩ := hasWidth_root hgs hw
    rw [List.getElem?_eq_getElem hi] at k4
    cases k4
    rw [List.getElem?_eq_getElem hl1] at k5
    cases k5
    have hRp : R.poly = [1, -486, 1] := by
      obtain ⟨hi2, rfl⟩ := List.getElem?_eq_some_iff.1 k1
      have := List.getElem_of_eq hps (i := i) (by simpa using hi2)
      simp only [List.getElem_map] at this
      rw [this, hpoly]
    rw [hRp] at k6
    obtain ⟨a, b, d, rfl⟩ := isolates_real hok k6
    rw [keepRoot_real k1 k2]
    have a1 := k6.1
    have a2 := k6.2.1
    have b1 : a < 488 := by exact_mod_cast a1.trans hr1.2
    have b2 : 244 < b := by exact_mod_cast hr1.1.trans a2
    simp only [Bool.and_eq_true, decide_eq_true_eq]
    constructor <;> linarith
  obtain ⟨e0, ⟨t1, e1, ht1⟩, t2, e2⟩ := gen122 hs hf
  have hne : ((i, 0) : Nat × Nat) ≠ (i, 1) := by simp
  have m0 : (i, 0) ∈ allPairs groups := (mem_allPairs groups (i, 0)).2 ⟨_, hR?, by simp⟩
  have m1 : (i, 1) ∈ allPairs groups := (mem_allPairs groups (i, 1)).2 ⟨_, hR?, by simp⟩
  have hw0 : ∀ ij ∈ allPairs groups, ∃ w, HasWidth groups ij w := by
    intro ij hij
    obtain ⟨R, r1, r2⟩ := (mem_allPairs groups ij).1 hij
    exact ⟨_, R, _, r1, List.getElem?_eq_getElem r2, le_refl _⟩
  have w00 : HasWidth groups (i, 0) 244 := ⟨_, _, hR?, rfl, by simp [RootIv.hi, RootIv.lo]⟩
  -- the first round
  rw [identifyLoop, if_pos (length_of_two m0 m1 hne), e0] at hloop
  simp only [Option.bind_eq_bind, Option.bind_some] at hloop
  obtain ⟨g1, f1, f2, f3, f4⟩ := refineGroups_spec hs ((allPairs groups).filter (keepRoot groups (121, 12769))) groups hall
    (fun ij hij => hw0 ij (List.mem_filter.1 hij).1)
  rw [f1] at hloop
  simp only [Option.bind_some] at hloop
  set P1 := (allPairs groups).filter (keepRoot groups (121, 12769)) with hP1
  have m10 : (i, 0) ∈ P1 := List.mem_filter.2 ⟨m0, by rw [keepRoot_real hR? rfl]; norm_num⟩
  have m11 : (i, 1) ∈ P1 := List.mem_filter.2 ⟨m1, by rw [keepRoot_real hR? rfl]; norm_num⟩
  have hw1 : ∀ ij ∈ P1, ∃ w, HasWidth g1 ij w := fun ij hij => by
    obtain ⟨w, hw⟩ := hw0 ij (List.mem_filter.1 hij).1
    exact ⟨w, (f4 ij w hw).1⟩
  -- the second round
  rw [identifyLoop, if_pos (length_of_two m10 m11 hne), e1] at hloop
  simp only [Option.bind_eq_bind, Option.bind_some] at hloop
  obtain ⟨g2, q1, q2, q3, q4⟩ := refineGroups_spec hs (P1.filter (keepRoot g1 (121, t1))) g1 f2 (fun ij hij => hw1 ij (List.mem_filter.1 hij).1)
  rw [q1] at hloop
  simp only [Option.bind_some] at hloop
  set P2 := P1.filter (keepRoot g1 (121, t1)) with hP2
  have m21 : (i, 1) ∈ P2 := List.mem_filter.2 ⟨m11, hbig _ rfl g1 f2 (hw1 _ m11) f3 t1 ht1⟩
  have hw2 : ∀ ij ∈ P2, ∃ w, HasWidth g2 ij w := fun ij hij => by
    obtain ⟨w, hw⟩ := hw1 ij (List.mem_filter.1 hij).1
    exact ⟨w, (q4 ij w hw).1⟩
  by_cases m20 : (i, 0) ∈ P2
  · -- the third round
    have w2 : HasWidth g2 (i, 0) (2 / 3 * (2 / 3 * 244)) := (q4 _ _ ((f4 _ _ w00).2 m10)).2 m20
    rw [identifyLoop, if_pos (length_of_two m20 m21 hne), e2] at hloop
    simp only [Option.bind_eq_bind, Option.bind_some] at hloop
    obtain ⟨g3, r1, r2, r3, r4⟩ := refineGroups_spec hs (P2.filter (keepRoot g2 (121, t2))) g2 q2 (fun ij hij => hw2 ij (List.mem_filter.1 hij).1)
    rw [r1] at hloop
    simp only [Option.bind_some] at hloop
    have hin := (identifyLoop_inv hs _ rss _ _ _ _ hloop r2 (fun ij hij => by
      obtain ⟨w, hw⟩ := hw2 ij (List.mem_filter.1 hij).1
      exact ⟨w, (r4 ij w hw).1⟩)).2.2 (i, 0) (by simp)
    have hk := (List.mem_filter.1 hin).2
    obtain ⟨R, iv, rs', σ, k1, k2, k3, k4, k5, k6⟩ := hasWidth_root q2 w2
    rw [List.getElem?_eq_getElem hi] at k4
    cases k4
    rw [List.getElem?_eq_getElem hl0] at k5
    cases k5
    have hRp : R.poly = [1, -486, 1] := by
      obtain ⟨hi2, rfl⟩ := List.getElem?_eq_some_iff.1 k1
      have := List.getElem_of_eq (q3.trans f3) (i := i) (by simpa using hi2)
      simp only [List.getElem_map] at this
      rw [this, hpoly]
    rw [hRp] at k6
    obtain ⟨a, b, d, rfl⟩ := isolates_real hok k6
    rw [keepRoot_real k1 k2] at hk
    simp only [Bool.and_eq_true, decide_eq_true_eq] at hk
    have a1 := k6.1
    rw [hργ] at a1
    simp only [RootIv.hi, RootIv.lo] at k3
    have k3' : (b : ℝ) - a ≤ 2 / 3 * (2 / 3 * 244) := by
      have := (Rat.cast_le (K := ℝ)).2 k3
      push_cast at this
      exact this
    have hk' : (121 : ℝ) < b := by exact_mod_cast hk.2
    nlinarith
  · have hin := (identifyLoop_inv hs _ rss _ _ _ _ hloop q2 hw2).2.2 (i, 0) (by simp)
    exact m20 hin

theorem mul122 {s : ℚ → ℚ → ℚ} (hs : SimplestOk s) {fac : Fac} (hf : FacOk fac) {prodPoly : List Int → List Int → Option (List Int)}
    (hprod : OpPolyOk (· * ·) prodPoly) {z : RealAlg} (h : RealAlg.mul s fac prodPoly (.real sqrt122m11) (.real sqrt122m11) = some z) :
    ¬ z.Is ((Real.sqrt 122 - 11) ^ 2) := by
  have hx : (RealAlg.real sqrt122m11).Is (Real.sqrt 122 - 11) := sqrt122m11_is hf
  have hpos : (0 : ℝ) < Real.sqrt 122 - 11 := by have := sqrt122_lo; linarith
  rw [RealAlg.mul] at h
  simp only [RealAlg.cmp_zero hs hx, (cmp_eq_gt_iff _ _).2 hpos, Option.bind_eq_bind, Option.bind_some, RealAlg.mulPos] at h
  have hne : rv sqrt122m11.poly ≠ 0 := rv_ne_zero.2 (sqrt122m11_is hf).irreducible.ne_zero
  obtain ⟨P, p1, p2, -⟩ := hprod _ _ hne hne
  rw [p1] at h
  exact identify122 hs hf p2 h

/-- What restricting the range does to the wide bounds: a single root. -/
theorem rootsIrreducible_single {fac : Fac} (hf : FacOk fac) {p : List Int} (hp : PolyOk p) {oa ob : Option ℚ} {ia ib : Bool} (hr : RangeOk p oa ob)
    {r : ℝ} (h : ∀ x : ℝ, x = r ↔ InRange oa ob ia ib x ∧ (rv p).eval x = 0) :
    ∃ a b d, rootsIrreducible fac p oa ob ia ib = some [.real ⟨p, a, b, none, none, d⟩] ∧ (RootIv.real a b d).Isolates (rv p) r := by
  obtain ⟨R, rs, r1, r2, r3, r4⟩ := rootsSquarefree_spec (rv_ne_zero.2 hp.irreducible.ne_zero) (irr_squarefree_real hp.irreducible) ia ib hr
  subst r2
  have hrs : rs = [r] := nodup_single (r3.sorted.imp fun h => ne_of_lt h) ((r4 r).2 ((h r).1 rfl)) (fun y hy => (h y).2 ((r4 y).1 hy))
  subst hrs
  have hiso := r3.isolates
  match hiv : R.ivs, hiso with
  | [iv], .cons h1 .nil =>
    obtain ⟨a, b, d, rfl⟩ := isolates_real hp h1
    refine ⟨a, b, d, ?_, h1⟩
    have hdeg := intGcd_models.toSemi.polyDegree_some R.poly hp.irreducible.ne_zero
    have hd2 := hp.degree
    unfold rootsIrreducible SqRoots.toRealRoots
    simp only [isIrreducible_ok hf hp.irreducible, assertThat, if_true, Option.bind_eq_bind, Option.bind_some, r1, hdeg,
      if_neg (by omega : ¬ (ipoly R.poly).natDegree = 0), if_neg (by omega : ¬ (ipoly R.poly).natDegree = 1), hiv]
    simp [SqRoots.rootAt, SqRoots.wide, hiv, assertThat, boundsLt]

end Verif.RealRoots
