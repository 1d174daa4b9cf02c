import Verif.Spec.FinitePoly
import Mathlib.Data.Set.Finite.Basic
import Mathlib.Data.Countable.Basic
import Mathlib.Data.Set.Countable

/-!
# Fair streams exist
-/

namespace Verif.Rings

/-- the first free position before the `t`-th word of the enumeration -/
def fairStart (len : Nat → Nat) : Nat → Nat
  | 0 => 0
  | t + 1 => fairStart len t * len t + len t

theorem fairStart_le (len : Nat → Nat) (hlen : ∀ t, 0 < len t) (t : Nat) : t ≤ fairStart len t := by
  induction t with
  | zero => exact Nat.zero_le _
  | succ t ih =>
    have h1 := hlen t
    have : fairStart len t ≤ fairStart len t * len t := Nat.le_mul_of_pos_right _ h1
    simp only [fairStart]; omega

theorem fairStart_mono (len : Nat → Nat) (hlen : ∀ t, 0 < len t) {s t : Nat} (h : s ≤ t) : fairStart len s ≤ fairStart len t := by
  induction h with
  | refl => exact le_rfl
  | @step t _ ih =>
    have h1 := hlen t
    have : fairStart len t ≤ fairStart len t * len t := Nat.le_mul_of_pos_right _ h1
    simp only [fairStart]; omega

theorem exists_fairStream {α K : Type} [Countable K] (v : α → K) (hv : Function.Surjective v) [Nonempty α] : ∃ rand, FairStream v rand := by
  classical
  haveI : Nonempty ((Σ n : Nat, (Fin (n + 1) → K)) × Nat) := ⟨⟨⟨0, fun _ => v (Classical.arbitrary α)⟩, 0⟩⟩
  obtain ⟨e, he⟩ := exists_surjective_nat ((Σ n : Nat, (Fin (n + 1) → K)) × Nat)
  let len : Nat → Nat := fun t => (e t).1.1 + 1
  have hlen : ∀ t, 0 < len t := fun t => Nat.succ_pos _
  let p : Nat → Nat := fun t => fairStart len t * len t
  have hp : ∀ t, fairStart len t ≤ p t := fun t => Nat.le_mul_of_pos_right _ (hlen t)
  have huniq : ∀ s t x, p s ≤ x → x < p s + len s → p t ≤ x → x < p t + len t → s = t := by
    have key : ∀ s t, s < t → p s + len s ≤ p t := fun s t hst =>
      (show p s + len s = fairStart len (s + 1) from rfl) ▸ (fairStart_mono len hlen hst).trans (hp t)
    intro s t x h1 h2 h3 h4
    rcases Nat.lt_trichotomy s t with h | h | h
    · have := key s t h; omega
    · exact h
    · have := key t s h; omega
  let rand : Nat → α := fun x => if hx : ∃ t, p t ≤ x ∧ x < p t + len t
    then Function.surjInv hv ((e hx.choose).1.2 ⟨x - p hx.choose, by have := hx.choose_spec; simp only [len] at this ⊢; omega⟩)
    else Classical.arbitrary α
  have hrand : ∀ t (i : Fin (len t)), v (rand (p t + i)) = (e t).1.2 i := by
    intro t i
    have hx : ∃ s, p s ≤ p t + i ∧ p t + i < p s + len s := ⟨t, by omega, by have := i.2; omega⟩
    have hs : hx.choose = t := huniq _ t (p t + i) hx.choose_spec.1 hx.choose_spec.2 (by omega) (by have := i.2; omega)
    simp only [rand, dif_pos hx, Function.surjInv_eq]
    have : ∀ (s : Nat) (hs : s = t) (hlt : p t + i - p s < (e s).1.1 + 1), (e s).1.2 ⟨p t + i - p s, hlt⟩ = (e t).1.2 i := by
      rintro s rfl hlt
      exact congrArg _ (Fin.ext (by simp))
    exact this _ hs _
  refine ⟨rand, fun n hn w m => ?_⟩
  obtain ⟨n, rfl⟩ : ∃ n', n = n' + 1 := ⟨n - 1, by omega⟩
  choose g hg using fun j : Nat => he (⟨n, w⟩, j)
  have hinj : Function.Injective g := fun a b hab => by
    have := hg a
    rw [hab, hg b] at this
    exact (Prod.mk.inj this).2.symm
  obtain ⟨t, ht, hmt⟩ := (Set.infinite_of_injective_forall_mem (s := {t | (e t).1 = ⟨n, w⟩}) hinj (fun j => by simp [hg])).exists_gt m
  refine ⟨fairStart len t, hmt.le.trans (fairStart_le len hlen t), fun i => ?_⟩
  have ht' : (e t).1 = ⟨n, w⟩ := ht
  have hl : len t = n + 1 := by simp only [len, ht']
  have := hrand t ⟨i, by rw [hl]; exact i.2⟩
  simp only [p, hl] at this
  rw [this]
  have key : ∀ (x : Σ n : Nat, (Fin (n + 1) → K)) (hx : x = ⟨n, w⟩) (hlt : (i : Nat) < x.1 + 1), x.2 ⟨i, hlt⟩ = w i := by
    rintro x rfl hlt; rfl
  exact key _ ht' _

end Verif.Rings
