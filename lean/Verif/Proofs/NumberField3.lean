import Verif.Proofs.NumberField
import Verif.Proofs.NumberField2
import Verif.Proofs.HermiteApp
import Verif.Proofs.MatrixPrim
import Verif.Props.Factored
import Verif.Proofs.LatticeHyper

/-! The reduction of a guess to `n` elements. -/

namespace Verif.Anf
open Verif.Rings Polynomial

attribute [-instance] Rat.smulDivisionRing Rat.instDistribSMul

local notation "qp" => polyVal (id : ℚ → ℚ)

section
variable {f : List ℚ} {n : Nat}

/-- the element with given coordinates in the powers of the generator -/
noncomputable def vecEl (f : List ℚ) (u : Fin n → ℚ) : NumField f := AdjoinRoot.mk _ (vecPoly u)

theorem vecEl_smul (c : ℚ) (u : Fin n → ℚ) : vecEl f (c • u) = c • vecEl f u := by
  unfold vecEl
  rw [vecPoly_smul, map_mul, Algebra.smul_def]
  rfl

theorem vecEl_sum {ι : Type} (s : Finset ι) (u : ι → Fin n → ℚ) : vecEl f (∑ i ∈ s, u i) = ∑ i ∈ s, vecEl f (u i) := by
  unfold vecEl
  rw [vecPoly_sum, map_sum]

theorem el_eq_vecEl {g : List ℚ} (h : (qp g).degree < n) : el f g = vecEl f fun j : Fin n => (qp g).coeff j := by
  unfold el vecEl
  rw [vecPoly_of_degree _ h]

theorem numCoeffs_le {g : List ℚ} : ratOps.polyNumCoeffs g ≤ n ↔ (qp g).degree < n := by
  by_cases h0 : qp g = 0
  · rw [ratOps_models.toRing.toSemi.polyNumCoeffs_zero g h0, h0, degree_zero]
    simp [WithBot.bot_lt_coe]
  · rw [ratOps_models.toRing.toSemi.polyNumCoeffs_ne g h0, degree_eq_natDegree h0]
    norm_cast

/-- what `reduceGuess` returns -/
structure Reduced (f : List ℚ) (n : Nat) (g new : List (List ℚ)) : Prop where
  len : new.length = n
  deg : ∀ x ∈ new, (qp x).degree < n
  sub : ∀ i, Combo (els f g (n + 1)) (els f new n i)
  sup : ∀ i, Combo (els f new n) (els f g (n + 1) i)

theorem mapM_reverse {β : Type} (F : Nat → Option β) (G : Fin n → β) (h : ∀ i : Fin n, F i = some (G i)) :
    ∃ l, (List.range n).reverse.mapM F = some l ∧ l = List.ofFn fun i : Fin n => G i.rev := by
  refine ⟨_, ?_, rfl⟩
  have e : (List.range n).reverse = (List.range n).map fun i => n - 1 - i := by
    refine List.ext_getElem (by simp) ?_
    intro i h1 h2
    simp
  rw [e, List.mapM_map]
  refine mapM_range_ofFn ?_
  intro i
  have := h i.rev
  rw [Fin.val_rev] at this
  simp only [Function.comp]
  rw [show n - 1 - (i : Nat) = n - (i + 1) by omega]
  exact this

end

section
variable {f : List ℚ} [hirr : Fact (Irreducible (qp f))]

theorem reduceGuess_spec {n : Nat} (hn : (qp f).natDegree = n) {g : List (List ℚ)} (hl : g.length = n + 1)
    (hd : ∀ x ∈ g, (qp x).degree < n) (h0 : ∃ i, els f g (n + 1) i ≠ 0) :
    ∃ new, reduceGuess f n g = some new ∧ Reduced f n g new := by
  have hmem : ∀ i : Fin (n + 1), g.getD i [] ∈ g := by
    intro i
    rw [List.getD_eq_getElem _ _ (by omega)]
    exact List.getElem_mem _
  let G : Matrix (Fin (n + 1)) (Fin n) ℚ := fun i j => (qp (g.getD i [])).coeff j
  have hG : ∀ i, els f g (n + 1) i = vecEl f (G i) := fun i => el_eq_vecEl (hd _ (hmem i))
  obtain ⟨gm, gm1, gm2⟩ := Mat.construct_denotes (v := (id : ℚ → ℚ)) (r := n + 1) (c := n) (mk := guessEntry g) (A := G) (by
    intro i j
    refine ⟨ratOps.polyCoeff (g.getD i []) j, ?_, ?_⟩
    · unfold guessEntry
      rw [List.getElem?_eq_getElem (by omega), List.getD_eq_getElem _ _ (by omega)]
      rfl
    · rw [ratOps_models.toRing.toSemi.polyCoeff])
  have hG0 : G ≠ 0 := by
    intro e
    obtain ⟨i, hi⟩ := h0
    apply hi
    rw [hG, e]
    change vecEl f (0 : Fin n → ℚ) = 0
    unfold vecEl vecPoly
    simp
  rcases matFactorPrimitiveFof_spec ratOps_models intOps_models.bezout.toGcd C64_rat_fof gm2 with ⟨e, -⟩ | ⟨-, x, p, P, e1, hP, hx, hGP, -⟩
  · exact absurd e hG0
  obtain ⟨mh, mu, pivs, H, U, e2, hH, hU, hmul, hdet, hE, -, -⟩ := intOps_models.rowReducedHermite hP.colsFlipped
  have hHf := hH.colsFlipped
  have hflip : ∀ i j, H i (Fin.rev j) = ∑ s, U i s * P s j := by
    intro i j
    rw [hmul, Matrix.mul_apply]
    refine Finset.sum_congr rfl fun s _ => ?_
    simp
  have hlast : ∀ j, H (Fin.last n) j = 0 := by
    intro j
    refine hE.below _ _ ?_
    have h1 : pivs.length ≤ n := by
      have h2 := (hE.increasing.imp fun h => Nat.ne_of_lt h : pivs.Nodup)
      have h3 : pivs ⊆ List.range n := fun q hq => List.mem_range.2 (hE.lt q hq)
      have h4 := (List.subperm_of_subset h2 h3).length_le
      simpa using h4
    simpa using h1
  -- the rows of the result
  let N : Fin (n + 1) → Fin n → ℚ := fun i j => (H i (Fin.rev j) : ℚ) * x
  have hNU : ∀ i, N i = ∑ s, (U i s : ℚ) • G s := by
    intro i
    funext j
    rw [Finset.sum_apply]
    change (H i (Fin.rev j) : ℚ) * x = _
    rw [hflip]
    push_cast
    rw [Finset.sum_mul]
    refine Finset.sum_congr rfl fun s _ => ?_
    rw [Pi.smul_apply, hGP s j, smul_eq_mul]
    change (U i s : ℚ) * (P s j : ℚ) * x = U i s * (x * (P s j : ℚ))
    ring
  obtain ⟨V, hV⟩ : ∃ V : Matrix (Fin (n + 1)) (Fin (n + 1)) ℤ, V * U = 1 := ⟨U⁻¹, Matrix.nonsing_inv_mul _ hdet⟩
  have hGV : ∀ i, G i = ∑ s, (V i s : ℚ) • N s := by
    intro i
    have h1 : ∀ k, ∑ s, V i s * U s k = if i = k then 1 else 0 := by
      intro k
      have := congrFun (congrFun hV i) k
      rw [Matrix.mul_apply, Matrix.one_apply] at this
      exact this
    calc G i = ∑ k, (((if i = k then 1 else 0 : ℤ)) : ℚ) • G k := by
          rw [Finset.sum_eq_single i]
          · rw [if_pos rfl, Int.cast_one, one_smul]
          · intro k _ hk
            rw [if_neg (Ne.symm hk), Int.cast_zero, zero_smul]
          · simp
      _ = ∑ k, ∑ s, ((V i s * U s k : ℤ) : ℚ) • G k := by
        refine Finset.sum_congr rfl fun k _ => ?_
        rw [← h1 k, Int.cast_sum, Finset.sum_smul]
      _ = ∑ s, ∑ k, ((V i s * U s k : ℤ) : ℚ) • G k := Finset.sum_comm
      _ = ∑ s, (V i s : ℚ) • N s := by
        refine Finset.sum_congr rfl fun s _ => ?_
        rw [hNU s, Finset.smul_sum]
        refine Finset.sum_congr rfl fun k _ => ?_
        rw [smul_smul]
        push_cast
        rfl
  have hrow : ∀ i : Fin n, ∃ q, rowElement f x mh.colsFlipped i = some q ∧ qp q = vecPoly (N i.castSucc) := by
    intro i
    obtain ⟨o, o1, o2⟩ : ∃ o, mh.colsFlipped.getRow i = some o ∧
        o.Denotes (id : ℤ → ℤ) ((H.submatrix id Fin.rev).submatrix (fun _ : Fin 1 => i.castSucc) id) := by
      unfold Mat.getRow
      rw [hHf.cols]
      exact hHf.submatrix [(i : Nat)] (List.range n) (r' := 1) (c' := n) rfl (by simp) (fun _ => i.castSucc) id (by intro i; simp)
        (by intro i; simp)
    have o3 := o2.applyMap (w := (id : ℚ → ℚ)) (fun z => (z : ℚ) * x) (fun z : ℤ => (z : ℚ) * x) (fun _ => rfl)
    obtain ⟨q, q1, q2⟩ := ratOps_models.pqFromCol f (irr_ne f) hn o3.transposed
    refine ⟨q, ?_, ?_⟩
    · unfold rowElement DomainOps.pqFromRow
      rw [o1]
      exact q1
    · rw [q2]
      rfl
  choose Q hQ1 hQ2 using hrow
  obtain ⟨l, l1, l2⟩ := mapM_reverse (rowElement f x mh.colsFlipped) Q hQ1
  have hll : l.length = n := by rw [l2]; simp
  have hels : ∀ i, els f l n i = vecEl f (N i.rev.castSucc) := by
    intro i
    obtain ⟨y, y1, y2⟩ := els_eq (f := f) hll i
    rw [y2]
    rw [l2, List.getElem?_ofFn] at y1
    simp only [Fin.is_lt, dif_pos, Option.some_inj, Fin.eta] at y1
    rw [← y1]
    unfold el vecEl
    rw [hQ2]
  refine ⟨l, ?_, ⟨hll, ?_, ?_, ?_⟩⟩
  · unfold reduceGuess
    simp only [gm1, Option.bind_eq_bind, Option.bind_some]
    rw [e1]
    simp only [Option.bind_some]
    rw [e2]
    exact l1
  · intro y hy
    rw [l2, List.mem_ofFn] at hy
    obtain ⟨i, rfl⟩ := hy
    rw [hQ2]
    exact vecPoly_degree _
  · intro i
    rw [hels, hNU, vecEl_sum]
    refine ⟨U i.rev.castSucc, Finset.sum_congr rfl fun s _ => ?_⟩
    rw [vecEl_smul, hG]
  · intro i
    rw [hG, hGV, vecEl_sum]
    refine Combo.sum _ fun s _ => ?_
    rw [vecEl_smul]
    refine Combo.zsmul _ ?_
    by_cases hs : (s : Nat) < n
    · have := Combo.self (els f l n) (Fin.rev ⟨s, hs⟩)
      rw [hels, Fin.rev_rev] at this
      exact this
    · have hsl : s = Fin.last n := Fin.ext (by simp; omega)
      have : N s = 0 := by
        funext j
        change (H s (Fin.rev j) : ℚ) * x = 0
        rw [hsl, hlast]
        simp
      rw [this]
      convert Combo.zero _
      unfold vecEl vecPoly
      simp

end

end Verif.Anf
