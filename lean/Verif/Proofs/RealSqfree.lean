import Verif.Proofs.RealIso

/-!
# `real_roots_squarefree` isolates exactly the real roots in its range
-/

namespace Verif.RealRoots

open Polynomial Verif.Rings

theorem mapM_forall {α β γ : Type} {A : α → γ → Prop} {B : α → β → Prop} {D : β → γ → Prop} {f : α → Option β}
    (h : ∀ t r, A t r → ∃ i, f t = some i ∧ B t i ∧ D i r) : ∀ {l : List α} {rs : List γ}, List.Forall₂ A l rs →
      ∃ m, l.mapM f = some m ∧ List.Forall₂ B l m ∧ List.Forall₂ D m rs := by
  intro l rs hl
  induction hl with
  | nil => exact ⟨[], rfl, .nil, .nil⟩
  | cons h1 _ ih =>
    obtain ⟨m, m1, m2, m3⟩ := ih
    obtain ⟨i, i1, i2, i3⟩ := h _ _ h1
    exact ⟨i :: m, by rw [List.mapM_cons, i1, m1]; rfl, .cons i2 m2, .cons i3 m3⟩

theorem forall₂_left {α β : Type} {B : α → β → Prop} {l : List α} {m : List β} (h : List.Forall₂ B l m) {i : β} (hi : i ∈ m) :
    ∃ t ∈ l, B t i := by
  induction h with
  | nil => simp at hi
  | cons h1 _ ih =>
    rcases List.mem_cons.1 hi with rfl | hi
    · exact ⟨_, List.mem_cons_self, h1⟩
    · obtain ⟨t, ht, hB⟩ := ih hi
      exact ⟨t, List.mem_cons_of_mem _ ht, hB⟩

theorem forall₂_right {α β : Type} {B : α → β → Prop} {l : List α} {m : List β} (h : List.Forall₂ B l m) {i : α} (hi : i ∈ l) :
    ∃ t ∈ m, B i t := by
  induction h with
  | nil => simp at hi
  | cons h1 _ ih =>
    rcases List.mem_cons.1 hi with rfl | hi
    · exact ⟨_, List.mem_cons_self, h1⟩
    · obtain ⟨t, ht, hB⟩ := ih hi
      exact ⟨t, List.mem_cons_of_mem _ ht, hB⟩

theorem pairwise_forall₂ {α β : Type} {B : α → β → Prop} {R : α → α → Prop} {S : β → β → Prop}
    (h : ∀ t i t' i', B t i → B t' i' → R t t' → S i i') {l : List α} {m : List β} (hl : List.Forall₂ B l m) (hp : l.Pairwise R) :
    m.Pairwise S := by
  induction hl with
  | nil => exact .nil
  | cons h1 h2 ih =>
    rw [List.pairwise_cons] at hp ⊢
    refine ⟨fun i hi => ?_, ih hp.2⟩
    obtain ⟨t, ht, hB⟩ := forall₂_left h2 hi
    exact h _ _ _ _ h1 hB (hp.1 t ht)

/-! ## The checks pass -/

theorem RootIv.Isolates.root {f : ℝ[X]} {i : RootIv} {r : ℝ} (h : i.Isolates f r) : f.eval r = 0 := by
  cases i with
  | rational a => exact h.2
  | real a b d => exact h.2.2.1

theorem RootIv.Isolates.lo_le {f : ℝ[X]} {i : RootIv} {r : ℝ} (h : i.Isolates f r) : (i.lo : ℝ) ≤ r := by
  cases i with
  | rational a => exact h.1.ge
  | real a b d => exact h.1.le

theorem RootIv.Isolates.le_hi {f : ℝ[X]} {i : RootIv} {r : ℝ} (h : i.Isolates f r) : r ≤ (i.hi : ℝ) := by
  cases i with
  | rational a => exact h.1.le
  | real a b d => exact h.2.1.le

theorem RootIv.Isolates.ends {f : ℝ[X]} {a b : ℚ} {d : Bool} {r : ℝ} (h : (RootIv.real a b d).Isolates f r) :
    f.eval (a : ℝ) ≠ 0 ∧ f.eval (b : ℝ) ≠ 0 ∧ a < b := by
  refine ⟨fun e => ?_, fun e => ?_, by exact_mod_cast h.1.trans h.2.1⟩
  · have := h.2.2.2.1 a le_rfl (h.1.trans h.2.1).le e
    exact absurd this h.1.ne
  · have := h.2.2.2.1 b (h.1.trans h.2.1).le le_rfl e
    exact absurd this h.2.1.ne'

theorem pairCheck_ok {f : ℝ[X]} {i j : RootIv} {r s : ℝ} (hi : i.Isolates f r) (hj : j.Isolates f s) (hrs : r < s) (h : i.hi ≤ j.lo) :
    pairCheck i j = true := by
  cases i with
  | rational a =>
    cases j with
    | rational x =>
      have : (a : ℝ) < x := by rw [← hi.1, ← hj.1]; exact hrs
      simpa [pairCheck] using (by exact_mod_cast this : a < x)
    | real x y d =>
      have h1 : a ≤ x := h
      have h2 : a ≠ x := by
        rintro rfl
        exact hj.ends.1 (by rw [← hi.1]; exact hi.2)
      simp [pairCheck, lt_of_le_of_ne h1 h2, hj.ends.2.2]
  | real a b d =>
    cases j with
    | rational x =>
      have h1 : b ≤ x := h
      have h2 : b ≠ x := by
        rintro rfl
        exact hi.ends.2.1 (by rw [← hj.1]; exact hj.2)
      simp [pairCheck, lt_of_le_of_ne h1 h2, hi.ends.2.2]
    | real x y d' =>
      have h1 : b ≤ x := h
      simp [pairCheck, h1, hi.ends.2.2, hj.ends.2.2]

theorem orderCheck_ok {f : ℝ[X]} {l : List RootIv} {rs : List ℝ} (hf : List.Forall₂ (RootIv.Isolates f) l rs) (hs : rs.Pairwise (· < ·))
    (ho : l.Pairwise fun u v => u.hi ≤ v.lo) : orderCheck l = true := by
  induction hf with
  | nil => rfl
  | cons h1 h2 ih =>
    cases h2 with
    | nil => rfl
    | cons h3 h4 =>
      rw [List.pairwise_cons] at hs ho
      rw [orderCheck, Bool.and_eq_true]
      exact ⟨pairCheck_ok h1 h3 (hs.1 _ (by simp)) (ho.1 _ (by simp)), ih hs.2 ho.2⟩

theorem signCheck_ok {p : List Int} {i : RootIv} {r : ℝ} (h : i.Isolates (rv p) r) : signCheck p i = true := by
  cases i with
  | rational a =>
    simp only [signCheck, beq_iff_eq]
    rw [evalAtRat_zero, ← h.1]; exact h.2
  | real a b d =>
    have h5 := h.2.2.2.2
    have e := h.ends
    have e1 : evalAtRat p a ≠ 0 := fun x => e.1 ((evalAtRat_zero _ _).1 x)
    have e2 : evalAtRat p b ≠ 0 := fun x => e.2.1 ((evalAtRat_zero _ _).1 x)
    cases d with
    | true =>
      simp only [if_true] at h5
      have u := (evalAtRat_neg _ _).2 h5.1
      have v := (evalAtRat_pos _ _).2 h5.2
      simp [signCheck, e1, e2, u, v, not_lt.2 u.le]
    | false =>
      simp only [Bool.false_eq_true, if_false] at h5
      have u := (evalAtRat_pos _ _).2 h5.1
      have v := (evalAtRat_neg _ _).2 h5.2
      simp [signCheck, e1, e2, u, v, not_lt.2 v.le]

/-- A list of isolating intervals passes its own check. -/
theorem SqRoots.Isolates.check {R : SqRoots} {rs : List ℝ} (h : R.Isolates rs) (h0 : rv R.poly ≠ 0) (hsq : Squarefree (rv R.poly)) :
    R.checkInvariants = some true := by
  rw [SqRoots.checkInvariants, sqfreeCheck_ok h0 hsq]
  simp only [Option.bind_eq_bind, Option.bind_some, Option.some_inj, Bool.true_and, Bool.and_eq_true, List.all_eq_true]
  refine ⟨orderCheck_ok h.isolates h.sorted h.ordered, fun i hi => ?_⟩
  obtain ⟨r, -, hr⟩ := forall₂_right h.isolates hi
  exact signCheck_ok hr

/-! ## Between two ends -/

theorem tlo_map (a b : ℚ) (t : Nat × Nat × Bool) : (((b - a) * ((t.1 : ℚ) / 2 ^ t.2.1) + a : ℚ) : ℝ) = a + (b - a) * tlo t := by
  simp only [tlo]; push_cast; ring

theorem thi_map (a b : ℚ) (t : Nat × Nat × Bool) (h : t.2.2 = true) :
    (((b - a) * (((t.1 + 1 : Nat) : ℚ) / 2 ^ t.2.1) + a : ℚ) : ℝ) = a + (b - a) * thi t := by
  simp only [thi, h, if_true]; push_cast; ring

theorem rootsBetween_spec {p : List Int} (h0 : rv p ≠ 0) (hsq : Squarefree (rv p)) {a b : ℚ} (hab : a < b) (ia ib : Bool) :
    ∃ R rs, rootsBetween p a b ia ib = some R ∧ R.poly = p ∧ R.Isolates rs ∧
      ∀ x, x ∈ rs ↔ InRange (some a) (some b) ia ib x ∧ (rv p).eval x = 0 := by
  have habR : (a : ℝ) < b := by exact_mod_cast hab
  have hw : (0 : ℝ) < b - a := sub_pos.2 habR
  obtain ⟨q1, d1, n1, s1, v1, x1⟩ := dropEnd_spec (p := p) (q := p) (a := a) h0 hsq Iff.rfl
  obtain ⟨q, d2, n2, s2, v2, x2⟩ := dropEnd_spec (p := p) (q := q1) (a := b) n1 s1 ((x1 b habR.ne').symm)
  have hqa : (rv q).eval (a : ℝ) ≠ 0 := fun e => v1 ((x2 a habR.ne).1 e)
  have hqx : ∀ x : ℝ, x ≠ a → x ≠ b → ((rv q).eval x = 0 ↔ (rv p).eval x = 0) := fun x ha hb => (x2 x hb).trans (x1 x ha)
  obtain ⟨t, t1, t2, κ, hκ, t3⟩ := transPoly_spec n2 hab
  have tev : ∀ x, (rv t).eval x = κ * (rv q).eval (a + (b - a) * x) := fun x => by rw [t3, eval_mul, eval_C, onIv_eval]
  have tn : rv t ≠ 0 := by rw [t3]; exact mul_ne_zero (by simpa using hκ) (onIv_ne hw n2)
  have tsq : Squarefree (rv t) := by rw [t3]; exact squarefree_scale hκ (squarefree_onIv hw s2)
  obtain ⟨out, ts, c1, c2⟩ := caLoop_spec t t2 tn tsq
  have hiso : isolateCA t = some out := by
    have z0 : intGcd.polyEvaluate t 0 ≠ 0 := by
      intro e
      have := rv_eval_int t 0
      rw [e, tev, Int.cast_zero, mul_zero, add_zero] at this
      exact (mul_ne_zero hκ hqa) this
    have z1 : intGcd.polyEvaluate t 1 ≠ 0 := by
      intro e
      have := rv_eval_int t 1
      rw [e, tev, Int.cast_zero, Int.cast_one, mul_one, add_sub_cancel] at this
      exact (mul_ne_zero hκ v2) this
    rw [isolateCA, sqfreeCheck_ok tn tsq]
    simp [assertThat, z0, z1, c1]
  -- the intervals
  have hmid : ∃ mid, out.mapM (caInterval p a b) = some mid ∧
      List.Forall₂ (fun t i => a + ((b : ℝ) - a) * tlo t ≤ (i.lo : ℝ) ∧ (i.hi : ℝ) ≤ a + ((b : ℝ) - a) * thi t) out mid ∧
      List.Forall₂ (RootIv.Isolates (rv p)) mid (ts.map fun x => a + ((b : ℝ) - a) * x) := by
    have key : ∀ u r, (TripOk (rv t) u r ∧ (0 ≤ tlo u ∧ thi u ≤ 1) ∧ (0 ≤ r ∧ r < 1 ∧ (rv t).eval r = 0)) →
        ∃ i, caInterval p a b u = some i ∧ (a + ((b : ℝ) - a) * tlo u ≤ (i.lo : ℝ) ∧ (i.hi : ℝ) ≤ a + ((b : ℝ) - a) * thi u) ∧
          i.Isolates (rv p) (a + ((b : ℝ) - a) * r) := by
      rintro u r ⟨hu, ⟨hb1, hb2⟩, hr1, hr2, hr3⟩
      have hq0 : (rv q).eval (a + (b - a) * r) = 0 := by
        have := tev r
        rw [hr3] at this
        exact (mul_eq_zero.1 this.symm).resolve_left hκ
      have hrb : a + ((b : ℝ) - a) * r < b := by nlinarith
      have hra : (a : ℝ) < a + ((b : ℝ) - a) * r := by
        have h1 : r ≠ 0 := by
          rintro rfl
          rw [mul_zero, add_zero] at hq0
          exact hqa hq0
        have := mul_pos hw (lt_of_le_of_ne hr1 (Ne.symm h1))
        linarith
      have hp0 : (rv p).eval (a + (b - a) * r) = 0 := (hqx _ hra.ne' hrb.ne).1 hq0
      unfold TripOk at hu
      unfold caInterval
      by_cases hh : u.2.2 = true
      · rw [if_pos hh] at hu ⊢
        have l1 := tlo_map a b u
        have l2 := thi_map a b u hh
        obtain ⟨i, i1, i2, i3, i4⟩ := openIv_spec hsq (a := (b - a) * ((u.1 : ℚ) / 2 ^ u.2.1) + a)
          (b := (b - a) * (((u.1 + 1 : Nat) : ℚ) / 2 ^ u.2.1) + a) (r := a + ((b : ℝ) - a) * r)
          (by rw [l1]; have := mul_lt_mul_of_pos_left hu.1 hw; linarith)
          (by rw [l2]; have := mul_lt_mul_of_pos_left hu.2.1 hw; linarith) hp0 (by
            intro x hx1 hx2 hx
            rw [l1] at hx1
            rw [l2] at hx2
            have hxa : (a : ℝ) < x := by have := mul_nonneg hw.le hb1; linarith
            have hxb : x < (b : ℝ) := by have := mul_le_mul_of_nonneg_left hb2 hw.le; linarith
            have e : (a : ℝ) + (b - a) * ((x - a) / (b - a)) = x := by field_simp; ring
            have h3 := hu.2.2 ((x - a) / (b - a)) (by rw [lt_div_iff₀ hw]; linarith) (by rw [div_lt_iff₀ hw]; linarith)
              (by rw [tev, e, (hqx x hxa.ne' hxb.ne).2 hx, mul_zero])
            rw [← h3, e])
        refine ⟨i, i1, ⟨?_, ?_⟩, i2⟩
        · rw [← l1]; exact_mod_cast i3
        · rw [← l2]; exact_mod_cast i4
      · rw [if_neg hh] at hu ⊢
        have l1 := tlo_map a b u
        refine ⟨_, rfl, ⟨?_, ?_⟩, ⟨?_, hp0⟩⟩
        · exact l1.ge
        · have : thi u = tlo u := by simp [thi, hh]
          rw [this]; exact l1.le
        · rw [l1, hu]
    have hall : List.Forall₂ (fun u r => TripOk (rv t) u r ∧ (0 ≤ tlo u ∧ thi u ≤ 1) ∧ (0 ≤ r ∧ r < 1 ∧ (rv t).eval r = 0)) out ts :=
      List.forall₂_iff_zip.2 ⟨c2.trip.length_eq, fun {u r} hur =>
        ⟨(List.forall₂_iff_zip.1 c2.trip).2 hur, c2.bnd u (List.of_mem_zip hur).1, (c2.mem r).1 (List.of_mem_zip hur).2⟩⟩
    obtain ⟨mid, m1, m2, m3⟩ := mapM_forall key hall
    exact ⟨mid, m1, m2, List.forall₂_map_right_iff.2 m3⟩
  obtain ⟨mid, m1, m2, m3⟩ := hmid
  have mlo : ∀ i ∈ mid, a ≤ i.lo ∧ i.hi ≤ b := by
    intro i hi
    obtain ⟨u, hu, l1, l2⟩ := forall₂_left m2 hi
    have hb := c2.bnd u hu
    constructor
    · have := mul_nonneg hw.le hb.1
      exact_mod_cast (by linarith : (a : ℝ) ≤ i.lo)
    · have := mul_le_mul_of_nonneg_left hb.2 hw.le
      exact_mod_cast (by linarith : (i.hi : ℝ) ≤ b)
  have mord : mid.Pairwise fun u v => u.hi ≤ v.lo := by
    refine pairwise_forall₂ (fun u i u' i' h1 h2 h3 => ?_) m2 c2.order
    have := mul_le_mul_of_nonneg_left h3 hw.le
    exact_mod_cast (by linarith : (i.hi : ℝ) ≤ i'.lo)
  have tmem : ∀ x, x ∈ ts.map (fun x => a + ((b : ℝ) - a) * x) ↔ (a : ℝ) < x ∧ x < b ∧ (rv p).eval x = 0 := by
    intro x
    rw [List.mem_map]
    constructor
    · rintro ⟨y, hy, rfl⟩
      obtain ⟨hy1, hy2, hy3⟩ := (c2.mem y).1 hy
      have hq0 : (rv q).eval (a + (b - a) * y) = 0 := by
        have := tev y
        rw [hy3] at this
        exact (mul_eq_zero.1 this.symm).resolve_left hκ
      have h1 : a + ((b : ℝ) - a) * y < b := by nlinarith
      have h2 : (a : ℝ) < a + ((b : ℝ) - a) * y := by
        have h1 : y ≠ 0 := by
          rintro rfl
          rw [mul_zero, add_zero] at hq0
          exact hqa hq0
        have := mul_pos hw (lt_of_le_of_ne hy1 (Ne.symm h1))
        linarith
      exact ⟨h2, h1, (hqx _ h2.ne' h1.ne).1 hq0⟩
    · rintro ⟨h1, h2, h3⟩
      have e : (a : ℝ) + (b - a) * ((x - a) / (b - a)) = x := by field_simp; ring
      refine ⟨(x - a) / (b - a), (c2.mem _).2 ⟨div_nonneg (by linarith) hw.le, by rw [div_lt_one hw]; linarith, ?_⟩, e⟩
      rw [tev, e, (hqx x h1.ne' h2.ne).2 h3, mul_zero]
  have tsort : (ts.map (fun x => a + ((b : ℝ) - a) * x)).Pairwise (· < ·) := by
    rw [List.pairwise_map]
    refine c2.sorted.imp fun {x y} hxy => ?_
    have := mul_lt_mul_of_pos_left hxy hw
    linarith
  -- the ends
  let first := if evalAtRat p a = 0 ∧ ia = true then [RootIv.rational a] else []
  let last := if evalAtRat p b = 0 ∧ ib = true then [RootIv.rational b] else []
  let rf : List ℝ := if evalAtRat p a = 0 ∧ ia = true then [(a : ℝ)] else []
  let rl : List ℝ := if evalAtRat p b = 0 ∧ ib = true then [(b : ℝ)] else []
  have hfirst : List.Forall₂ (RootIv.Isolates (rv p)) first rf ∧ (∀ i ∈ first, i = .rational a) ∧ (∀ x ∈ rf, x = a) ∧
      (∀ x, x ∈ rf ↔ x = a ∧ (rv p).eval x = 0 ∧ ia = true) ∧ first.Pairwise (fun u v => u.hi ≤ v.lo) ∧ rf.Pairwise (· < ·) := by
    by_cases h : evalAtRat p a = 0 ∧ ia = true
    · simp only [first, rf, if_pos h]
      have h' := (evalAtRat_zero _ _).1 h.1
      refine ⟨.cons ⟨rfl, h'⟩ .nil, by simp, by simp, fun x => ?_, by simp, by simp⟩
      rw [List.mem_singleton]
      exact ⟨fun e => ⟨e, by rw [e]; exact h', h.2⟩, fun e => e.1⟩
    · simp only [first, rf, if_neg h]
      refine ⟨.nil, by simp, by simp, fun x => ?_, by simp, by simp⟩
      constructor
      · intro e; simp at e
      · rintro ⟨rfl, e1, e2⟩
        exact absurd ⟨(evalAtRat_zero _ _).2 e1, e2⟩ h
  have hlast : List.Forall₂ (RootIv.Isolates (rv p)) last rl ∧ (∀ i ∈ last, i = .rational b) ∧ (∀ x ∈ rl, x = b) ∧
      (∀ x, x ∈ rl ↔ x = b ∧ (rv p).eval x = 0 ∧ ib = true) ∧ last.Pairwise (fun u v => u.hi ≤ v.lo) ∧ rl.Pairwise (· < ·) := by
    by_cases h : evalAtRat p b = 0 ∧ ib = true
    · simp only [last, rl, if_pos h]
      have h' := (evalAtRat_zero _ _).1 h.1
      refine ⟨.cons ⟨rfl, h'⟩ .nil, by simp, by simp, fun x => ?_, by simp, by simp⟩
      rw [List.mem_singleton]
      exact ⟨fun e => ⟨e, by rw [e]; exact h', h.2⟩, fun e => e.1⟩
    · simp only [last, rl, if_neg h]
      refine ⟨.nil, by simp, by simp, fun x => ?_, by simp, by simp⟩
      constructor
      · intro e; simp at e
      · rintro ⟨rfl, e1, e2⟩
        exact absurd ⟨(evalAtRat_zero _ _).2 e1, e2⟩ h
  let R : SqRoots := ⟨p, first ++ mid ++ last⟩
  have hR : R.Isolates (rf ++ ts.map (fun x => a + ((b : ℝ) - a) * x) ++ rl) := by
    refine ⟨?_, List.rel_append (List.rel_append hfirst.1 m3) hlast.1, ?_⟩
    · rw [List.pairwise_append, List.pairwise_append]
      refine ⟨⟨hfirst.2.2.2.2.2, tsort, fun x hx y hy => ?_⟩, hlast.2.2.2.2.2, fun x hx y hy => ?_⟩
      · rw [hfirst.2.2.1 x hx]; exact ((tmem y).1 hy).1
      · rw [hlast.2.2.1 y hy]
        rcases List.mem_append.1 hx with hx | hx
        · rw [hfirst.2.2.1 x hx]; exact habR
        · exact ((tmem x).1 hx).2.1
    · change (first ++ mid ++ last).Pairwise _
      rw [List.pairwise_append, List.pairwise_append]
      refine ⟨⟨hfirst.2.2.2.2.1, mord, fun u hu v hv => ?_⟩, hlast.2.2.2.2.1, fun u hu v hv => ?_⟩
      · rw [hfirst.2.1 u hu]; exact (mlo v hv).1
      · rw [hlast.2.1 v hv]
        rcases List.mem_append.1 hu with hu | hu
        · rw [hfirst.2.1 u hu]; exact hab.le
        · exact (mlo u hu).2
  refine ⟨R, _, ?_, rfl, hR, fun x => ?_⟩
  · have hc := hR.check h0 hsq
    have e1 : evalAtRat q a ≠ 0 := fun e => hqa ((evalAtRat_zero _ _).1 e)
    have e2 : evalAtRat q b ≠ 0 := fun e => v2 ((evalAtRat_zero _ _).1 e)
    unfold rootsBetween
    simp only [d1, d2, t1, hiso, m1, Option.bind_eq_bind, Option.bind_some, assertThat, decide_eq_true hab, if_true, bne_iff_ne, ne_eq, e1, e2, not_false_eq_true]
    change (R.checkInvariants.bind _) = _
    rw [hc]
    rfl
  · rw [List.mem_append, List.mem_append, hfirst.2.2.2.1, hlast.2.2.2.1, tmem]
    simp only [InRange, Option.some.injEq, forall_eq']
    constructor
    · rintro ((⟨rfl, h1, h2⟩ | ⟨h1, h2, h3⟩) | ⟨rfl, h1, h2⟩)
      · exact ⟨⟨Or.inr ⟨h2, rfl⟩, Or.inl habR⟩, h1⟩
      · exact ⟨⟨Or.inl h1, Or.inl h2⟩, h3⟩
      · exact ⟨⟨Or.inl habR, Or.inr ⟨h2, rfl⟩⟩, h1⟩
    · rintro ⟨⟨h1 | ⟨h1, rfl⟩, h2 | ⟨h2, h2'⟩⟩, h3⟩
      · exact Or.inl (Or.inr ⟨h1, h2, h3⟩)
      · exact Or.inr ⟨h2', h3, h2⟩
      · exact Or.inl (Or.inl ⟨rfl, h3, h1⟩)
      · exact Or.inl (Or.inl ⟨rfl, h3, h1⟩)

end Verif.RealRoots
