import Verif.Proofs.HermiteApp
import Verif.Proofs.PolyFof

/-!
# Primitive parts and block diagonal matrices
-/

namespace Verif.Rings

section
variable {R : Type} [Zero R]

theorem blockDiagEntry_append (L1 L2 : List (Block R)) (i j : Nat) :
    blockDiagEntry (L1 ++ L2) i j =
      if i < (L1.map Block.rows).sum ∧ j < (L1.map Block.cols).sum then blockDiagEntry L1 i j
      else if (L1.map Block.rows).sum ≤ i ∧ (L1.map Block.cols).sum ≤ j then
        blockDiagEntry L2 (i - (L1.map Block.rows).sum) (j - (L1.map Block.cols).sum)
      else 0 := by
  induction L1 generalizing i j with
  | nil => simp
  | cons b L1 ih =>
    rw [List.cons_append]
    simp only [blockDiagEntry, List.map_cons, List.sum_cons]
    by_cases h1 : i < b.rows ∧ j < b.cols
    · rw [dif_pos h1, if_pos (by omega), dif_pos h1]
    · rw [dif_neg h1, dif_neg h1]
      by_cases h2 : b.rows ≤ i ∧ b.cols ≤ j
      · rw [if_pos h2, if_pos h2, ih]
        by_cases h3 : i - b.rows < (L1.map Block.rows).sum ∧ j - b.cols < (L1.map Block.cols).sum
        · have h3' : i < b.rows + (L1.map Block.rows).sum ∧ j < b.cols + (L1.map Block.cols).sum := by omega
          rw [if_pos h3, if_pos h3']
        · have h3' : ¬ (i < b.rows + (L1.map Block.rows).sum ∧ j < b.cols + (L1.map Block.cols).sum) := by omega
          rw [if_neg h3, if_neg h3']
          by_cases h4 : (L1.map Block.rows).sum ≤ i - b.rows ∧ (L1.map Block.cols).sum ≤ j - b.cols
          · have h4' : b.rows + (L1.map Block.rows).sum ≤ i ∧ b.cols + (L1.map Block.cols).sum ≤ j := by omega
            rw [if_pos h4, if_pos h4', Nat.sub_sub, Nat.sub_sub]
          · have h4' : ¬ (b.rows + (L1.map Block.rows).sum ≤ i ∧ b.cols + (L1.map Block.cols).sum ≤ j) := by omega
            rw [if_neg h4, if_neg h4']
      · rw [if_neg h2, if_neg h2]
        split
        · rfl
        · split
          · omega
          · rfl

end

section
variable {α R : Type} [CommRing R] {S : SemiRingOps α} {v : α → R} (h : S.Models v)
include h

theorem SemiRingOps.Models.matJoinDiag {mats : List (Mat α)} {L : List (Block R)}
    (hm : List.Forall₂ (fun m b => m.Denotes v b.entry) mats L) :
    ∃ s, S.matJoinDiag mats = some s ∧ s.Denotes v
      (Matrix.of fun (i : Fin (L.map Block.rows).sum) (j : Fin (L.map Block.cols).sum) => blockDiagEntry L i j) := by
  obtain ⟨n, hn⟩ : ∃ n, mats.length = n := ⟨_, rfl⟩
  induction n using Nat.strong_induction_on generalizing mats L with
  | h n ih =>
    match mats, L, hm with
    | [], _, .nil =>
      unfold SemiRingOps.matJoinDiag
      refine ⟨⟨0, 0, false, false, false, []⟩, rfl, rfl, rfl, rfl, ?_⟩
      intro i
      exact i.elim0
    | [m], _, .cons (b := b) hb .nil =>
      unfold SemiRingOps.matJoinDiag
      refine ⟨m, rfl, hb.cast' (by simp) (by simp) ?_⟩
      intro i j
      simp [blockDiagEntry]
    | m1 :: m2 :: rest, L, hm =>
      set l := m1 :: m2 :: rest with hl
      have hlen : 2 ≤ l.length := by simp [hl]
      have htk : (l.take (l.length / 2)).length = l.length / 2 := by rw [List.length_take]; omega
      have hdk : (l.drop (l.length / 2)).length = l.length - l.length / 2 := by rw [List.length_drop]
      obtain ⟨s1, e1, h1⟩ := ih _ (by omega) (List.forall₂_take (l.length / 2) hm) rfl
      obtain ⟨s2, e2, h2⟩ := ih _ (by omega) (List.forall₂_drop (l.length / 2) hm) rfl
      obtain ⟨s, e, hs⟩ := h.joinDiagTwo h1 h2
      have hL : L = L.take (l.length / 2) ++ L.drop (l.length / 2) := by simp
      have key := fun i j => blockDiagEntry_append (L.take (l.length / 2)) (L.drop (l.length / 2)) i j
      rw [← hL] at key
      refine ⟨s, ?_, ?_⟩
      · rw [hl, SemiRingOps.matJoinDiag]
        simp only [← hl]
        rw [e1, Option.bind_some, e2, Option.bind_some, e]
      · refine hs.cast' ?_ ?_ ?_
        · conv_rhs => rw [hL]
          rw [List.map_append, List.sum_append]
        · conv_rhs => rw [hL]
          rw [List.map_append, List.sum_append]
        · intro i j
          rw [Matrix.of_apply, key]
          obtain ⟨i', rfl⟩ := finSumFinEquiv.surjective i
          obtain ⟨j', rfl⟩ := finSumFinEquiv.surjective j
          rw [Matrix.reindex_apply, Matrix.submatrix_apply, Equiv.symm_apply_apply, Equiv.symm_apply_apply]
          rcases i' with i' | i' <;> rcases j' with j' | j'
          · have := i'.2; have := j'.2
            simp only [finSumFinEquiv_apply_left, Fin.val_cast, Fin.val_castAdd, Matrix.fromBlocks_apply₁₁]
            exact (if_pos ⟨i'.2, j'.2⟩).symm
          · have := i'.2
            simp only [finSumFinEquiv_apply_left, finSumFinEquiv_apply_right, Fin.val_cast, Fin.val_castAdd, Fin.val_natAdd,
              Matrix.fromBlocks_apply₁₂]
            exact ((if_neg (by omega)).trans (if_neg (by omega))).symm
          · have := j'.2
            simp only [finSumFinEquiv_apply_left, finSumFinEquiv_apply_right, Fin.val_cast, Fin.val_castAdd, Fin.val_natAdd,
              Matrix.fromBlocks_apply₂₁]
            exact ((if_neg (by omega)).trans (if_neg (by omega))).symm
          · simp only [finSumFinEquiv_apply_right, Fin.val_cast, Fin.val_natAdd, Matrix.fromBlocks_apply₂₂]
            refine Eq.symm ((if_neg (by omega)).trans ((if_pos (by omega)).trans ?_))
            rw [Nat.add_sub_cancel_left, Nat.add_sub_cancel_left]
            rfl

end

section
variable {α R : Type} [CommRing R] {S : GcdOps α} {v : α → R} (h : S.Models v)
include h

omit [CommRing R] h in
theorem Mat.Denotes.entriesList [Zero R] (d : α) {m : Mat α} {r c : Nat} {A : Matrix (Fin r) (Fin c) R} (hm : m.Denotes v A) :
    ∃ l, m.entriesList = some l ∧ ∀ x, x ∈ l.map v ↔ ∃ i j, A i j = x := by
  obtain ⟨f, hf, hvf⟩ := (Mat.denotes_iff d).1 hm
  refine ⟨_, hf.entriesList, ?_⟩
  intro x
  simp only [List.mem_map, List.mem_flatten, List.mem_range]
  constructor
  · rintro ⟨a, ⟨l, ⟨i, hi, rfl⟩, ha⟩, rfl⟩
    rw [List.mem_map] at ha
    obtain ⟨j, hj, rfl⟩ := ha
    rw [List.mem_range] at hj
    exact ⟨⟨i, hi⟩, ⟨j, hj⟩, (hvf ⟨i, hi⟩ ⟨j, hj⟩).symm⟩
  · rintro ⟨i, j, rfl⟩
    refine ⟨f i j, ⟨_, ⟨i, i.2, rfl⟩, ?_⟩, hvf i j⟩
    rw [List.mem_map]
    exact ⟨j, List.mem_range.2 j.2, rfl⟩

theorem GcdOps.Models.matFactorPrimitive {r c : Nat} {m : Mat α} {A : Matrix (Fin r) (Fin c) R} (hm : m.Denotes v A) :
    (A = 0 ∧ S.matFactorPrimitive m = some none) ∨
    (A ≠ 0 ∧ ∃ g p P, S.matFactorPrimitive m = some (some (g, p)) ∧ p.Denotes v P ∧ v g ≠ 0 ∧ S.IsFav v (v g) ∧
      (∀ i j, A i j = v g * P i j) ∧ IsGcdOf {x | ∃ i j, P i j = x} 1) := by
  haveI := h.domain
  have hS := h.toRing.toSemi
  obtain ⟨l, el, hl⟩ := hm.entriesList S.zero
  obtain ⟨g, eg, hgcd, hfav⟩ := h.gcdList l
  have hset : {x | x ∈ l.map v} = {x | ∃ i j, A i j = x} := by ext x; exact hl x
  rw [hset] at hgcd
  have hdef : S.matFactorPrimitive m = match S.isZero g with
      | true => some none
      | false => (S.matDivScalar m g).map fun p => some (g, p) := by
    unfold GcdOps.matFactorPrimitive
    rw [el]
    change (S.gcdList l).bind _ = _
    rw [eg]
    rfl
  rw [hdef]
  by_cases hA : A = 0
  · left
    refine ⟨hA, ?_⟩
    have : v g = 0 := by
      have := hgcd.2 0 (by rintro x ⟨i, j, rfl⟩; rw [hA]; simp)
      exact zero_dvd_iff.1 this
    rw [(hS.isZero g).2 this]
  · right
    have hg0 : v g ≠ 0 := by
      intro e
      apply hA
      ext i j
      have := hgcd.1 (A i j) ⟨i, j, rfl⟩
      rw [e] at this
      exact zero_dvd_iff.1 this
    rw [(hS.isZero_false g).2 hg0]
    obtain ⟨f, hf, hvf⟩ := (Mat.denotes_iff S.zero).1 hm
    have hq : ∀ i j, ∃ q, (i < r → j < c → unwrapDiv (S.div (f i j) g) = some q ∧ v (f i j) = v q * v g) := by
      intro i j
      by_cases hij : i < r ∧ j < c
      · obtain ⟨q, e, hq⟩ := h.toFav.toDomain.div_unwrap (f i j) g hg0 (by
          rw [hvf ⟨i, hij.1⟩ ⟨j, hij.2⟩]
          exact hgcd.1 _ ⟨_, _, rfl⟩)
        exact ⟨q, fun _ _ => ⟨e, hq⟩⟩
      · exact ⟨S.zero, fun h1 h2 => absurd ⟨h1, h2⟩ hij⟩
    choose q hq using hq
    obtain ⟨p, ep, hp⟩ := Mat.Rep.loopRC (R := r) (C := c) (step := Mat.modify fun x => unwrapDiv (S.div x g)) (fun i j _ => q i j) (f := f)
      (m := m) (by
        intro m' g' i j hi hj hm' he
        exact hm'.modify hi hj (by rw [he]; exact (hq i j hi hj).1)) hf
    refine ⟨hA, g, p, Matrix.of fun (i : Fin r) (j : Fin c) => v (q i j), ?_, hp.denotes, hg0, hfav, ?_, ?_⟩
    · unfold DomainOps.matDivScalar
      rw [hm.rows, hm.cols]
      change (Mat.loopRC r c (Mat.modify fun x => unwrapDiv (S.div x g)) m).map _ = _
      rw [ep]
      rfl
    · intro i j
      rw [Matrix.of_apply, ← hvf i j, (hq i j i.2 j.2).2, mul_comm]
    · refine ⟨fun x _ => one_dvd x, ?_⟩
      intro d hd
      have h1 : v g * d ∣ v g := by
        apply hgcd.2
        rintro x ⟨i, j, rfl⟩
        rw [← hvf i j, (hq i j i.2 j.2).2, mul_comm]
        exact mul_dvd_mul_right (hd _ ⟨i, j, rfl⟩) _
      obtain ⟨k, hk⟩ := h1
      refine ⟨k, mul_left_cancel₀ hg0 ?_⟩
      rw [mul_one, ← mul_assoc]
      exact hk

end

section
variable {α β K R : Type} [Field K] [CommRing R] [Algebra R K] {S : DomainOps α} {B : GcdOps β} {fromBase : β → α} {num den : α → β}
  {v : α → K} {w : β → R} (hS : S.Models v) (hB : B.Models w) (hF : FofModels fromBase num den v w)
include hS hB hF

theorem matApplyBase [IsFractionRing R K] {r c : Nat} {m : Mat α} {A : Matrix (Fin r) (Fin c) K} (hm : m.Denotes v A) (d : β)
    (hd : ∀ x ∈ m.elems, w (den x) ∣ w d) :
    ∃ q Q, m.applyMapM (fun x => asBaseRing B.toSemiRingOps num den (S.mul (fromBase d) x)) = some q ∧ q.Denotes w Q ∧
      ∀ i j, algebraMap R K (Q i j) = algebraMap R K (w d) * A i j := by
  have hval : ∀ x ∈ m.elems, asBaseRing B.toSemiRingOps num den (S.mul (fromBase d) x) = some (num (S.mul (fromBase d) x)) ∧
      algebraMap R K (w (num (S.mul (fromBase d) x))) = algebraMap R K (w d) * v x := by
    intro x hx
    obtain ⟨k, hk⟩ := hd x hx
    have e : v (S.mul (fromBase d) x) = algebraMap R K (k * w (num x)) := by
      rw [hS.mul, hF.fromBase, hk, map_mul, map_mul, ← hF.fraction]; ring
    have h1 := hF.base _ _ e
    have h2 := hF.fraction (S.mul (fromBase d) x)
    rw [h1, map_one, mul_one] at h2
    refine ⟨?_, ?_⟩
    · rw [asBaseRing, if_pos ((hB.equal _ _).2 (by rw [h1, hB.one]))]
    · rw [← h2, hS.mul, hF.fromBase]
  have hmap := mapM_eq_map m.elems (f := fun x => asBaseRing B.toSemiRingOps num den (S.mul (fromBase d) x))
    (g := fun x => num (S.mul (fromBase d) x)) fun x hx => (hval x hx).1
  choose f hf1 hf2 using hm.entry
  have hget : ∀ (i : Fin r) (j : Fin c), m.elems[m.rcToIdx i j]? = some (f i j) := by
    intro i j
    have h1 : (i : Nat) < m.rows := by rw [hm.rows]; exact i.2
    have h2 : (j : Nat) < m.cols := by rw [hm.cols]; exact j.2
    have hx := hf1 i j
    rw [m.at_eq h1 h2] at hx
    cases hc : m.elems[m.rcToIdx i j]? with
    | none => rw [hc] at hx; simp at hx
    | some y =>
      rw [hc] at hx
      simp only [Option.map_some, Option.some.injEq, Except.ok.injEq] at hx
      rw [hx]
  have hden : (m.applyMap fun x => num (S.mul (fromBase d) x)).Denotes w
      (Matrix.of fun (i : Fin r) (j : Fin c) => w (num (S.mul (fromBase d) (f i j)))) := by
    refine ⟨hm.rows, hm.cols, by unfold Mat.applyMap; simpa using hm.length, ?_⟩
    intro i j
    refine ⟨num (S.mul (fromBase d) (f i j)), ?_, rfl⟩
    have h1 : (i : Nat) < m.rows := by rw [hm.rows]; exact i.2
    have h2 : (j : Nat) < m.cols := by rw [hm.cols]; exact j.2
    rw [Mat.at_eq _ (by exact h1) (by exact h2)]
    change ((m.elems.map _)[m.rcToIdx i j]?).map _ = _
    rw [List.getElem?_map, hget]
    rfl
  refine ⟨_, _, ?_, hden, ?_⟩
  · unfold Mat.applyMapM
    rw [hmap]
    rfl
  · intro i j
    rw [Matrix.of_apply, (hval _ (List.mem_of_getElem? (hget i j))).2, hf2]

omit hS hB hF in
/-- every stored entry is an entry of the matrix -/
theorem Mat.mem_elems {α : Type} {m : Mat α} (hl : m.elems.length = m.dim1 * m.dim2) {x : α} (hx : x ∈ m.elems) :
    ∃ i j, i < m.rows ∧ j < m.cols ∧ m.get i j = some x := by
  obtain ⟨k, hk, rfl⟩ := List.getElem_of_mem hx
  rw [hl] at hk
  have hrc : m.rows * m.cols = m.dim1 * m.dim2 := by
    unfold Mat.rows Mat.cols
    cases m.transpose
    · rfl
    · exact Nat.mul_comm _ _
  let F : Fin m.rows × Fin m.cols → Fin (m.dim1 * m.dim2) := fun p => ⟨m.rcToIdx p.1 p.2, m.rcToIdx_lt p.1.2 p.2.2⟩
  have hinj : Function.Injective F := by
    rintro ⟨a, b⟩ ⟨a', b'⟩ e
    have := m.rcToIdx_inj a.2 b.2 a'.2 b'.2 (congrArg Fin.val e)
    rw [Prod.mk.injEq]
    exact ⟨Fin.ext this.1, Fin.ext this.2⟩
  have hsurj : Function.Surjective F :=
    ((Fintype.bijective_iff_injective_and_card F).2 ⟨hinj, by simp [hrc]⟩).2
  obtain ⟨⟨a, b⟩, e⟩ := hsurj ⟨k, hk⟩
  refine ⟨a, b, a.2, b.2, ?_⟩
  rw [m.get_eq a.2 b.2, show m.rcToIdx a b = k from congrArg Fin.val e, List.getElem?_eq_getElem (by rw [hl]; exact hk)]

theorem matFactorPrimitiveFof_spec [IsFractionRing R K] {r c : Nat} {m : Mat α} {A : Matrix (Fin r) (Fin c) K} (hm : m.Denotes v A) :
    (A = 0 ∧ matFactorPrimitiveFof S B fromBase num den m = none) ∨
    (A ≠ 0 ∧ ∃ x p P, matFactorPrimitiveFof S B fromBase num den m = some (x, p) ∧ p.Denotes w P ∧ v x ≠ 0 ∧
      (∀ i j, A i j = v x * algebraMap R K (P i j)) ∧ IsGcdOf {y | ∃ i j, P i j = y} 1) := by
  haveI := hB.domain
  have hinj : Function.Injective (algebraMap R K) := IsFractionRing.injective R K
  obtain ⟨f, hf, hvf⟩ := (Mat.denotes_iff S.zero).1 hm
  obtain ⟨l, el, hlx⟩ : ∃ l, m.entriesList = some l ∧ ∀ i j, i < r → j < c → f i j ∈ l := by
    refine ⟨_, hf.entriesList, ?_⟩
    intro i j hi hj
    rw [List.mem_flatten]
    refine ⟨_, List.mem_map.2 ⟨i, List.mem_range.2 hi, rfl⟩, List.mem_map.2 ⟨j, List.mem_range.2 hj, rfl⟩⟩
  obtain ⟨d, d1, d2, d3⟩ := hB.lcmList_fold (l.map den) B.one
  have hd0 : w d ≠ 0 := by
    intro e
    have : w d ∣ ((l.map den).map w).prod := by
      apply d3
      intro x hx
      rcases hx with rfl | hx
      · rw [hB.one]; exact one_dvd _
      · exact List.dvd_prod hx
    rw [e, zero_dvd_iff, List.prod_eq_zero_iff] at this
    simp only [List.map_map, List.mem_map, Function.comp] at this
    obtain ⟨x, -, hx⟩ := this
    exact hF.den_ne x hx
  have hd1 : algebraMap R K (w d) ≠ 0 := (map_ne_zero_iff _ hinj).2 hd0
  obtain ⟨q, Q, eq, hq, hQ⟩ := matApplyBase hS hB hF hm d (by
    intro x hx
    obtain ⟨i, j, hi, hj, e⟩ := Mat.mem_elems hm.length hx
    rw [hm.rows] at hi
    rw [hm.cols] at hj
    rw [hf.get i j hi hj, Option.some.injEq] at e
    rw [← e]
    apply d2
    right
    simp only [List.map_map, Set.mem_setOf_eq, List.mem_map, Function.comp]
    exact ⟨_, hlx i j hi hj, rfl⟩)
  have hdef : matFactorPrimitiveFof S B fromBase num den m = (B.matFactorPrimitiveUnwrap q).bind fun mp =>
      (unwrapDiv (S.div (fromBase mp.1) (fromBase d))).bind fun x => some (x, mp.2) := by
    unfold matFactorPrimitiveFof
    rw [el]
    change (B.lcmList (l.map den)).bind _ = _
    rw [show B.lcmList (l.map den) = some d from d1]
    change (m.applyMapM _).bind _ = _
    rw [eq]
    rfl
  rw [hdef]
  unfold GcdOps.matFactorPrimitiveUnwrap
  rcases hB.matFactorPrimitive hq with ⟨h0, e0⟩ | ⟨h0, g, p, P, e0, hp, hg0, -, hgP, hprim⟩
  · left
    refine ⟨?_, by rw [e0]; rfl⟩
    ext i j
    have := hQ i j
    rw [h0, Matrix.zero_apply, map_zero] at this
    rcases mul_eq_zero.1 this.symm with h1 | h1
    · exact absurd h1 hd1
    · exact h1
  · right
    obtain ⟨x, ex, hx⟩ := hS.div_unwrap (fromBase g) (fromBase d) (by rwa [hF.fromBase])
      (by rw [hF.fromBase, hF.fromBase]; exact (isUnit_iff_ne_zero.2 hd1).dvd)
    rw [hF.fromBase, hF.fromBase] at hx
    refine ⟨?_, x, p, P, ?_, hp, ?_, ?_, hprim⟩
    · intro hA
      apply h0
      ext i j
      have := hQ i j
      rw [hA, Matrix.zero_apply, mul_zero] at this
      exact (map_eq_zero_iff _ hinj).1 this
    · rw [e0]
      change (unwrapDiv (S.div (fromBase g) (fromBase d))).bind _ = _
      rw [ex]
      rfl
    · intro e
      rw [e, zero_mul] at hx
      exact hg0 ((map_eq_zero_iff _ hinj).1 hx)
    · intro i j
      apply mul_left_cancel₀ hd1
      rw [← hQ i j, hgP, map_mul, hx]
      ring

end

end Verif.Rings
