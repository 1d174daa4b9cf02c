import Verif.Proofs.AksEncode
import Verif.Proofs.Natural
import Mathlib.Data.Nat.Digits.Lemmas
import Mathlib.Algebra.CharP.Lemmas
import Mathlib.Algebra.MonoidAlgebra.Basic
import Mathlib.Data.ZMod.Basic
import Mathlib.Algebra.CharP.Algebra
import Mathlib.FieldTheory.Finite.Basic

/-!
# Powers of polynomials modulo `x^r - 1` and `n`
-/

namespace Verif.Aks

open Finset Verif.Natural

/-- `c` has reduced coefficients, and its value at every `r`-th root of unity of every ring in which `n = 0` is the given one -/
def Val (n r : ℕ) (c : ℕ → ℕ) (v : ∀ (R : Type) [CommRing R], R → R) : Prop :=
  (∀ i < r, c i < n) ∧ ∀ (R : Type) [CommRing R] (x : R), x ^ r = 1 → (n : R) = 0 → ev x r c = v R x

theorem aksPowLoop_eq {n r cs : ℕ} (h : Fits n r cs) (bits : List Bool) : ∀ {a b : ℕ → ℕ}, (∀ i < r, a i < n) → (∀ i < r, b i < n) →
    ∃ c, (∀ dbg, aksPowLoop dbg n r cs bits (enc cs a r) (enc cs b r) = some (enc cs c r)) ∧
      Val n r c fun _R _ x => ev x r a * ev x r b ^ Nat.ofDigits 2 (bits.map fun b => bif b then 1 else 0) := by
  induction bits with
  | nil =>
    intro a b ha hb
    exact ⟨a, fun _ => rfl, ha, fun R _ x _ _ => by simp⟩
  | cons bit t ih =>
    intro a b ha hb
    have hlt : ∀ (u v : ℕ → ℕ), ∀ i < r, conv r u v i % n < n := fun u v i _ => Nat.mod_lt _ h.n_pos
    have hv : ∀ (u v : ℕ → ℕ) (R : Type) [CommRing R] (x : R), x ^ r = 1 → (n : R) = 0 → ev x r (fun k => conv r u v k % n) = ev x r u * ev x r v :=
      fun u v R _ x hx hn => by rw [ev_mod hn, ev_conv hx]
    cases bit with
    | false =>
      obtain ⟨c, h1, h2, h3⟩ := ih ha (hlt b b)
      refine ⟨c, ?_, h2, fun R _ x hx hn => ?_⟩
      · intro dbg
        rw [aksPowLoop, aksMul_eq dbg h hb hb]
        exact h1 dbg
      · rw [h3 R x hx hn]
        beta_reduce
        rw [hv _ _ R x hx hn]
        simp [Nat.ofDigits_cons, pow_mul, pow_two]
    | true =>
      obtain ⟨c, h1, h2, h3⟩ := ih (hlt a b) (hlt b b)
      refine ⟨c, ?_, h2, fun R _ x hx hn => ?_⟩
      · intro dbg
        rw [aksPowLoop, aksMul_eq dbg h hb hb, if_pos rfl, aksMul_eq dbg h ha hb]
        exact h1 dbg
      · rw [h3 R x hx hn]
        beta_reduce
        rw [hv _ _ R x hx hn, hv _ _ R x hx hn]
        simp [Nat.ofDigits_cons, pow_mul, pow_add, pow_two, mul_assoc]

theorem ofDigits_bits (k : ℕ) : Nat.ofDigits 2 (k.bits.map fun b => bif b then 1 else 0) = k := by
  rw [← Nat.digits_two_eq_bits, Nat.ofDigits_digits]

theorem enc_set (cs r : ℕ) (l : List ℕ) (hl : l.length = r) : aksEncode cs l = enc cs (fun i => l.getD i 0) r := by
  rw [aksEncode_eq, hl]

theorem aksPow_eq {n r cs : ℕ} (h : Fits n r cs) (hn : 2 ≤ n) {b : ℕ → ℕ} (hb : ∀ i < r, b i < n) (k : ℕ) :
    ∃ c, (∀ dbg, aksPow dbg n r cs (enc cs b r) k = some (enc cs c r)) ∧ Val n r c fun _R _ x => ev x r b ^ k := by
  have h0 := h.r_pos
  have hone : ∀ i, ((List.replicate r 0).set 0 1).getD i 0 = if i = 0 then 1 else 0 := by
    intro i
    rw [List.getD_eq_getElem?_getD, List.getElem?_set]
    split
    · simp_all
    · rename_i hi
      rw [if_neg (Ne.symm hi), List.getElem?_replicate]
      split <;> rfl
  obtain ⟨c, h1, h2, h3⟩ := aksPowLoop_eq h k.bits (a := fun i => if i = 0 then 1 else 0) (b := b)
    (fun i _ => by split <;> omega) hb
  refine ⟨c, ?_, h2, fun R _ x hx hn => ?_⟩
  · intro dbg
    rw [aksPow, enc_set cs r _ (by simp), ← h1 dbg]
    congr 1
    exact enc_congr fun i _ => hone i
  · rw [h3 R x hx hn, ofDigits_bits]
    have : ev x r (fun i => if i = 0 then 1 else 0) = 1 := by
      unfold ev
      rw [sum_eq_single_of_mem 0 (mem_range.2 h0)]
      · simp
      · intro i _ hi; simp [hi]
    beta_reduce
    rw [this, one_mul]

theorem getD_set (l : List ℕ) (k v i : ℕ) (hk : k < l.length) : (l.set k v).getD i 0 = if i = k then v else l.getD i 0 := by
  rw [List.getD_eq_getElem?_getD, List.getElem?_set]
  split
  · rename_i h; subst h; simp [hk]
  · rename_i h; rw [if_neg (Ne.symm h), List.getD_eq_getElem?_getD]

theorem getD_rep (r i : ℕ) : (List.replicate r 0).getD i 0 = 0 := by
  rw [List.getD_eq_getElem?_getD, List.getElem?_replicate]; split <;> rfl

/-- the coefficients of `x + b` -/
def lin (b i : ℕ) : ℕ := if i = 1 then 1 else if i = 0 then b else 0

theorem ev_lin {R : Type*} [CommRing R] (x : R) {r k : ℕ} (hr : k < r) (hk : k ≠ 0) (b : ℕ) :
    ev x r (fun i => if i = k then 1 else if i = 0 then b else 0) = x ^ k + b := by
  unfold ev
  rw [show (∑ i ∈ range r, (((if i = k then 1 else if i = 0 then b else 0 : ℕ)) : R) * x ^ i)
      = ∑ i ∈ range r, ((if i = k then x ^ k else 0) + (if i = 0 then (b : R) else 0)) from sum_congr rfl fun i _ => by
    rcases eq_or_ne i k with rfl | h1
    · simp [hk]
    · rcases eq_or_ne i 0 with rfl | h2
      · simp [h1]
      · simp [h1, h2]]
  rw [sum_add_distrib, sum_ite_eq', sum_ite_eq', if_pos (mem_range.2 hr), if_pos (mem_range.2 (by omega))]

/-- the identity that `aksIdentity` compares -/
theorem aksIdentity_eq {n r cs b : ℕ} (h : Fits n r cs) (hn : 2 ≤ n) (hr : 2 ≤ r) (hb : b < n) (hnr : n % r ≠ 0) :
    ∃ c, Val n r c (fun _R _ x => (x + b) ^ n) ∧
      ∀ dbg, aksIdentity dbg n r cs b = some (decide (∀ i < r, c i = if i = n % r then 1 else if i = 0 then b else 0)) := by
  have hlin : ∀ k, ∀ i < r, (if i = k then 1 else if i = 0 then b else 0) < n := by
    intro k i _
    split
    · omega
    · split <;> omega
  obtain ⟨c, h1, h2, h3⟩ := aksPow_eq h hn (hlin 1) n
  refine ⟨c, ⟨h2, fun R _ x hx h0 => ?_⟩, ?_⟩
  · rw [h3 R x hx h0]
    beta_reduce
    rw [ev_lin x (by omega) (by omega), pow_one]
  · have e1 : aksEncode cs (((List.replicate r 0).set 0 b).set 1 1) = enc cs (fun i => if i = 1 then 1 else if i = 0 then b else 0) r := by
      rw [enc_set cs r _ (by simp)]
      refine enc_congr fun i _ => ?_
      rw [getD_set _ _ _ _ (by simp; omega), getD_set _ _ _ _ (by simp; omega), getD_rep]
    have hm := Nat.mod_lt n (show 0 < r by omega)
    have e2 : aksEncode cs (((List.replicate r 0).set 0 b).set (n % r) (((List.replicate r 0).set 0 b).getD (n % r) 0 + 1))
        = enc cs (fun i => if i = n % r then 1 else if i = 0 then b else 0) r := by
      rw [enc_set cs r _ (by simp)]
      refine enc_congr fun i _ => ?_
      rw [getD_set _ _ _ _ (by simp; omega), getD_set _ _ _ _ (by simp; omega), getD_set _ _ _ _ (by simp; omega), getD_rep, getD_rep, if_neg hnr]
    intro dbg
    unfold aksIdentity
    rw [e1, h1]
    simp only [e2, Option.bind_eq_bind, Option.bind_some, Option.some.injEq, decide_eq_decide]
    exact enc_inj (fun i hi => lt_of_lt_of_le (h2 i hi) h.n_le) fun i hi => lt_of_lt_of_le (hlin _ i hi) h.n_le

theorem pow_mod {R : Type*} [Monoid R] {x : R} {r : ℕ} (hx : x ^ r = 1) (m : ℕ) : x ^ m = x ^ (m % r) := by
  conv_lhs => rw [← Nat.div_add_mod m r, pow_add, pow_mul, hx, one_pow, one_mul]

/-- If the comparison succeeds the identity holds in every ring. -/
theorem aksIdentity_true (dbg : Bool) {n r cs b : ℕ} (h : Fits n r cs) (hn : 2 ≤ n) (hr : 2 ≤ r) (hb : b < n) (hnr : n % r ≠ 0)
    (ht : aksIdentity dbg n r cs b = some true) (R : Type) [CommRing R] (h0 : (n : R) = 0) (x : R) (hx : x ^ r = 1) :
    (x + b) ^ n = x ^ n + b := by
  obtain ⟨c, ⟨_, h3⟩, h4⟩ := aksIdentity_eq h hn hr hb hnr
  rw [h4 dbg, Option.some.injEq, decide_eq_true_eq] at ht
  have e := h3 R x hx h0
  beta_reduce at e
  rw [← e, pow_mod hx n, ← ev_lin x (Nat.mod_lt n (by omega)) hnr]
  exact ev_congr fun i hi => by rw [ht i hi]

/-- For prime `n` the comparison succeeds. -/
theorem aksIdentity_prime (dbg : Bool) {n r cs b : ℕ} (h : Fits n r cs) (hn : n.Prime) (hr : 2 ≤ r) (hb : b < n) (hnr : n % r ≠ 0) :
    aksIdentity dbg n r cs b = some true := by
  obtain ⟨c, ⟨h2, h3⟩, h4⟩ := aksIdentity_eq h hn.two_le hr hb hnr
  rw [h4 dbg, Option.some.injEq, decide_eq_true_eq]
  haveI := Fact.mk hn
  haveI : NeZero r := ⟨by omega⟩
  let R := AddMonoidAlgebra (ZMod n) (ZMod r)
  let x : R := AddMonoidAlgebra.single (1 : ZMod r) (1 : ZMod n)
  have hxp : ∀ k : ℕ, x ^ k = AddMonoidAlgebra.single (k : ZMod r) (1 : ZMod n) := by
    intro k
    rw [AddMonoidAlgebra.single_pow, one_pow, nsmul_eq_mul, mul_one]
  have hx : x ^ r = 1 := by rw [hxp, ZMod.natCast_self]; rfl
  haveI : CharP R n := by
    refine charP_of_injective_algebraMap (R := ZMod n) ?_ n
    exact FaithfulSMul.algebraMap_injective _ _
  have h0 : (n : R) = 0 := CharP.cast_eq_zero R n
  have e : ev x r c = ev x r (fun i => if i = n % r then 1 else if i = 0 then b else 0) := by
    rw [h3 R x hx h0]
    beta_reduce
    rw [ev_lin x (Nat.mod_lt n (by omega)) hnr, ← pow_mod hx n, add_pow_char]
    congr 1
    have := ZMod.pow_card (b : ZMod n)
    have h' := congrArg (algebraMap (ZMod n) R) this
    rw [map_pow, map_natCast] at h'
    exact h'
  have hco : ∀ (f : ℕ → ℕ), ∀ i < r, AddMonoidAlgebra.coeff (ev x r f) (i : ZMod r) = (f i : ZMod n) := by
    intro f i hi
    unfold ev
    rw [show (∑ j ∈ range r, (f j : R) * x ^ j) = ∑ j ∈ range r, AddMonoidAlgebra.single (j : ZMod r) (f j : ZMod n) from
      sum_congr rfl fun j _ => by rw [hxp, ← nsmul_eq_mul, AddMonoidAlgebra.smul_single]; simp]
    rw [AddMonoidAlgebra.coeff_sum, Finsupp.finset_sum_apply, sum_eq_single_of_mem i (mem_range.2 hi)]
    · rw [AddMonoidAlgebra.coeff_single, Finsupp.single_apply, if_pos rfl]
    · intro j hj hji
      rw [AddMonoidAlgebra.coeff_single, Finsupp.single_apply, if_neg]
      intro hc
      rw [ZMod.natCast_eq_natCast_iff', Nat.mod_eq_of_lt (mem_range.1 hj), Nat.mod_eq_of_lt hi] at hc
      exact hji hc
  intro i hi
  have e1 := congrArg (fun f : R => AddMonoidAlgebra.coeff f (i : ZMod r)) e
  simp only [hco _ i hi] at e1
  have := (ZMod.natCast_eq_natCast_iff' _ _ _).1 e1
  rw [Nat.mod_eq_of_lt (h2 i hi), Nat.mod_eq_of_lt] at this
  · exact this
  · have := hn.two_le
    split
    · omega
    · split <;> omega

end Verif.Aks
