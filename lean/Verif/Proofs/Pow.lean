import Verif.Model.Pow
import Mathlib.Algebra.Group.Basic
import Mathlib.Data.Nat.Digits.Lemmas
import Mathlib.Data.List.GetD
import Mathlib.Tactic.Ring

namespace Verif

/-- list of repeated squares -/
def sqs {M : Type} (mul : M → M → M) : Nat → M → List M
  | 0, _ => []
  | k + 1, a => mul a a :: sqs mul k (mul a a)

theorem growPows_eq {M : Type} (mul : M → M → M) (count : Nat) (pows : List M) (last : M) :
    growPows mul count pows last = pows ++ sqs mul (count - pows.length) last := by
  fun_induction growPows mul count pows last with
  | case1 pows last h ih =>
    rw [ih]
    have : count - pows.length = (count - (pows ++ [mul last last]).length) + 1 := by
      simp; omega
    rw [this]
    simp [sqs]
  | case2 pows last h =>
    have : count - pows.length = 0 := by omega
    simp [this, sqs]

theorem foldl_pows {M : Type} [Monoid M] (bits : List Bool) (c a : M) (hc : Commute c a) :
    (bits.zip (a :: sqs (· * ·) (bits.length - 1) a)).foldl
      (fun ans bp => if bp.1 then ans * bp.2 else ans) c
      = c * a ^ (Nat.ofDigits 2 (bits.map fun b => bif b then 1 else 0)) := by
  induction bits generalizing c a with
  | nil => simp
  | cons b t ih =>
    simp only [List.zip_cons_cons, List.foldl_cons, List.map_cons, Nat.ofDigits_cons]
    cases t with
    | nil => cases b <;> simp
    | cons b' t' =>
      simp only [List.length_cons, Nat.add_sub_cancel] at ih ⊢
      simp only [sqs]
      have hc2 : ∀ c : M, Commute c a → Commute c (a * a) := fun c h => h.mul_right h
      have hc3 : Commute (if b then c * a else c) (a * a) := by
        cases b
        · exact hc2 _ hc
        · exact hc2 _ (hc.mul_left (Commute.refl a))
      have := ih (if b then c * a else c) (a * a) hc3
      rw [this]
      cases b <;> simp [pow_add, pow_mul, pow_two, mul_assoc]

theorem binPow_eq_pow {M : Type} [Monoid M] (a : M) (n : Nat) :
    binPow (· * ·) 1 a n = a ^ n := by
  unfold binPow
  split
  · subst_vars; simp
  split
  · subst_vars; simp
  have hb : 0 < n.bits.length := by
    rcases h : n.bits with _ | ⟨b, t⟩
    · have := Nat.digits_two_eq_bits n
      rw [h] at this
      exact absurd (Nat.digits_eq_nil_iff_eq_zero.1 (this.trans rfl)) (by assumption)
    · simp
  simp only [foldPows, growPows_eq]
  have := foldl_pows n.bits 1 a (Commute.one_left a)
  simp only [List.length_singleton, List.singleton_append] at *
  rw [this, ← Nat.digits_two_eq_bits, Nat.ofDigits_digits]
  simp

/-- `binPow` through a map `f` compatible with the operations. -/
theorem binPow_map {M N : Type} (mul : M → M → M) (one a : M) (mul' : N → N → N) (one' : N)
    (f : M → N) (h1 : f one = one') (hm : ∀ x y, f (mul x y) = mul' (f x) (f y)) (n : Nat) :
    f (binPow mul one a n) = binPow mul' one' (f a) n := by
  unfold binPow
  split
  · exact h1
  split
  · rfl
  simp only [foldPows, growPows_eq]
  have hs : ∀ k b, (sqs mul k b).map f = sqs mul' k (f b) := by
    intro k
    induction k with
    | zero => intro b; rfl
    | succ k ih => intro b; simp [sqs, ih, hm]
  have : ∀ (bits : List Bool) (ps : List M) (c : M),
      f ((bits.zip ps).foldl (fun ans bp => if bp.1 then mul ans bp.2 else ans) c)
      = (bits.zip (ps.map f)).foldl (fun ans bp => if bp.1 then mul' ans bp.2 else ans) (f c) := by
    intro bits
    induction bits with
    | nil => intro ps c; simp
    | cons b t ih =>
      intro ps c
      cases ps with
      | nil => simp
      | cons p ps => 
        simp only [List.zip_cons_cons, List.foldl_cons, List.map_cons]
        rw [ih]
        cases b <;> simp [hm]
  rw [this]
  simp [h1, hs]

/-- `binPow` with an operation that agrees with `*` on a closed set. -/
theorem binPow_mem {M : Type} (mul : M → M → M) (one a : M) (P : M → Prop) (h1 : P one) (ha : P a)
    (hm : ∀ x y, P x → P y → P (mul x y)) (n : Nat) : P (binPow mul one a n) := by
  unfold binPow
  split
  · exact h1
  split
  · exact ha
  simp only [foldPows, growPows_eq]
  have hs : ∀ k b, P b → ∀ x ∈ sqs mul k b, P x := by
    intro k
    induction k with
    | zero => intro b _ x hx; simp [sqs] at hx
    | succ k ih =>
      intro b hb x hx
      simp only [sqs, List.mem_cons] at hx
      rcases hx with rfl | hx
      · exact hm _ _ hb hb
      · exact ih _ (hm _ _ hb hb) x hx
  have : ∀ (bits : List Bool) (ps : List M) (c : M), P c → (∀ x ∈ ps, P x) →
      P ((bits.zip ps).foldl (fun ans bp => if bp.1 then mul ans bp.2 else ans) c) := by
    intro bits
    induction bits with
    | nil => intro ps c hc _; simpa
    | cons b t ih =>
      intro ps c hc hp
      cases ps with
      | nil => simpa
      | cons p ps => 
        simp only [List.zip_cons_cons, List.foldl_cons]
        apply ih
        · cases b
          · simpa
          · exact hm _ _ hc (hp p (by simp))
        · intro x hx; exact hp x (by simp [hx])
  apply this _ _ _ h1
  intro x hx
  simp only [List.cons_append, List.nil_append, List.mem_cons] at hx
  rcases hx with rfl | hx
  · exact ha
  · exact hs _ _ ha x hx

end Verif
