import Verif.Proofs.MultiPolyRing

/-!
# The two monomial orders
-/

namespace Verif.Rings

/-- The order of `lexicographic_order` in terms of exponents: at the first variable where they differ, the first monomial has
the larger exponent. -/
theorem lexCmp_lt_iff : ∀ {a b : Mono}, a.WF → b.WF →
    (Mono.lexCmp a b = .lt ↔ ∃ x, (∀ y < x, monoVal a y = monoVal b y) ∧ monoVal b x < monoVal a x)
  | [], [], _, _ => by simp [Mono.lexCmp]
  | [], f :: b, _, _ => by simp [Mono.lexCmp, monoVal_nil]
  | e :: a, [], ha, _ => by
    simp only [Mono.lexCmp, true_iff]
    refine ⟨e.1, fun y hy => ?_, ?_⟩
    · rw [monoVal_lt_head ha hy, monoVal_nil]; rfl
    · rw [monoVal_head ha, monoVal_nil]; exact ha.2 e List.mem_cons_self
  | (x, i) :: a, (y, j) :: b, ha, hb => by
    have hi : 0 < i := ha.2 (x, i) List.mem_cons_self
    have hj : 0 < j := hb.2 (y, j) List.mem_cons_self
    have hax : monoVal ((x, i) :: a) x = i := monoVal_head ha
    have hby : monoVal ((y, j) :: b) y = j := monoVal_head hb
    have hal : ∀ z < x, monoVal ((x, i) :: a) z = 0 := fun z hz => monoVal_lt_head ha hz
    have hbl : ∀ z < y, monoVal ((y, j) :: b) z = 0 := fun z hz => monoVal_lt_head hb hz
    rw [Mono.lexCmp]
    split_ifs with h1 h2 h3 h4
    · simp only [true_iff]
      refine ⟨x, fun z hz => by rw [hal z hz, hbl z (hz.trans h1)], ?_⟩
      rw [hax, hbl x h1]; exact hi
    · simp only [reduceCtorEq, false_iff]
      rintro ⟨w, hw1, hw2⟩
      rcases lt_trichotomy w y with hw | hw | hw
      · rw [hal w (hw.trans h2)] at hw2; omega
      · rw [hw, hal y h2] at hw2; omega
      · have := hw1 y hw
        rw [hal y h2, hby] at this; omega
    · have hxy : x = y := by omega
      subst hxy
      simp only [true_iff]
      exact ⟨x, fun z hz => by rw [hal z hz, hbl z hz], by rw [hax, hby]; exact h3⟩
    · have hxy : x = y := by omega
      subst hxy
      simp only [reduceCtorEq, false_iff]
      rintro ⟨w, hw1, hw2⟩
      rcases lt_trichotomy w x with hw | hw | hw
      · rw [hal w hw] at hw2; omega
      · rw [hw, hax, hby] at hw2; omega
      · have := hw1 x hw
        rw [hax, hby] at this; omega
    · have hxy : x = y := by omega
      have hij : i = j := by omega
      subst hxy
      subst hij
      rw [lexCmp_lt_iff ha.tail hb.tail]
      simp only [monoVal_cons, Finsupp.add_apply, add_right_inj, add_lt_add_iff_left]

theorem lexCmp_mul_lt (H : HashOrder) {a b : Mono} (c : Mono) (ha : a.WF) (hb : b.WF) :
    Mono.lexCmp (Mono.mul H a c) (Mono.mul H b c) = .lt ↔ Mono.lexCmp a b = .lt := by
  rw [lexCmp_lt_iff (Mono.mul_wf H a c) (Mono.mul_wf H b c), lexCmp_lt_iff ha hb]
  simp only [monoVal_mul, Finsupp.add_apply, add_left_inj, add_lt_add_iff_right]

theorem mono_mul_cancel (H : HashOrder) {a b c : Mono} (ha : a.WF) (hb : b.WF)
    (h : Mono.mul H a c = Mono.mul H b c) : a = b := by
  have := congrArg monoVal h
  rw [monoVal_mul, monoVal_mul] at this
  exact monoVal_inj ha hb (add_right_cancel this)

theorem lexCmp_mul (H : HashOrder) {a b : Mono} (c : Mono) (ha : a.WF) (hb : b.WF) :
    Mono.lexCmp (Mono.mul H a c) (Mono.mul H b c) = Mono.lexCmp a b := by
  rcases h : Mono.lexCmp a b with _ | _ | _
  · exact (lexCmp_mul_lt H c ha hb).2 h
  · rw [(lexCmp_eq_iff a b).1 h, lexCmp_refl]
  · rw [lexCmp_gt_iff] at h ⊢
    exact (lexCmp_mul_lt H c hb ha).2 h

theorem degree_mul (H : HashOrder) (a b : Mono) : Mono.degree (Mono.mul H a b) = Mono.degree a + Mono.degree b := by
  rw [Mono.degree_eq, Mono.degree_eq, Mono.degree_eq, monoVal_mul, map_add]

theorem gradedCmp_mul (H : HashOrder) {a b : Mono} (c : Mono) (ha : a.WF) (hb : b.WF) :
    Mono.gradedCmp (Mono.mul H a c) (Mono.mul H b c) = Mono.gradedCmp a b := by
  rw [Mono.gradedCmp, Mono.gradedCmp, degree_mul, degree_mul, lexCmp_mul H c ha hb]
  simp only [add_lt_add_iff_right, gt_iff_lt]

theorem gradedCmp_eq_iff (a b : Mono) : Mono.gradedCmp a b = .eq ↔ a = b := by
  rw [Mono.gradedCmp]
  split_ifs with h1 h2
  · simp only [reduceCtorEq, false_iff]; rintro rfl; omega
  · simp only [reduceCtorEq, false_iff]; rintro rfl; omega
  · exact lexCmp_eq_iff a b

theorem gradedCmp_swap (a b : Mono) : (Mono.gradedCmp a b).swap = Mono.gradedCmp b a := by
  rw [Mono.gradedCmp, Mono.gradedCmp]
  split_ifs <;> first | rfl | omega | exact lexCmp_swap a b

theorem gradedCmp_lt_trans {a b c : Mono} (h : Mono.gradedCmp a b = .lt) (h' : Mono.gradedCmp b c = .lt) :
    Mono.gradedCmp a c = .lt := by
  rw [Mono.gradedCmp] at h h' ⊢
  split_ifs at h h' ⊢ <;> first | rfl | omega | exact lexCmp_lt_trans h h'

theorem lexCmp_one {m : Mono} (hm : m ≠ Mono.one) : Mono.lexCmp m Mono.one = .lt := by
  cases m with
  | nil => exact (hm rfl).elim
  | cons e m => rfl

theorem gradedCmp_one {m : Mono} (hm : m.WF) (h1 : m ≠ Mono.one) : Mono.gradedCmp m Mono.one = .lt := by
  rw [Mono.gradedCmp]
  have h0 : Mono.degree Mono.one = 0 := rfl
  split_ifs with h2 h3
  · omega
  · rfl
  · exact lexCmp_one h1

end Verif.Rings
