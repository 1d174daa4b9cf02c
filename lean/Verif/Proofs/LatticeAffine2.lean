import Verif.Proofs.LatticeAffine

/-! # Intersections of affine lattices -/

namespace Verif.Rings

section
variable {R : Type} [CommRing R] {r c : Nat}

/-- A scalar and a matrix as one row vector. -/
def packL (R : Type) [CommRing R] (r c : Nat) : (R × Matrix (Fin r) (Fin c) R) →ₗ[R] (Fin (1 + r * c) → R) where
  toFun p := Fin.append (fun _ : Fin 1 => p.1) (flatL R r c p.2)
  map_add' p q := by
    funext i
    refine Fin.addCases (fun i => ?_) (fun i => ?_) i
    · simp only [Pi.add_apply, Fin.append_left, Prod.fst_add]
    · simp only [Pi.add_apply, Fin.append_right, Prod.snd_add, map_add]
  map_smul' a p := by
    funext i
    refine Fin.addCases (fun i => ?_) (fun i => ?_) i
    · simp only [Pi.smul_apply, Fin.append_left, Prod.smul_fst, RingHom.id_apply]
    · simp only [Pi.smul_apply, Fin.append_right, Prod.smul_snd, map_smul, RingHom.id_apply]

theorem packL_apply (p : R × Matrix (Fin r) (Fin c) R) : packL R r c p = Fin.append (fun _ : Fin 1 => p.1) (flatL R r c p.2) := rfl

theorem packL_zero (p : R × Matrix (Fin r) (Fin c) R) : packL R r c p 0 = p.1 := Fin.append_left (fun _ : Fin 1 => p.1) (flatL R r c p.2) 0

theorem packL_injective : Function.Injective (packL R r c) := by
  intro p q hpq
  have h1 : p.1 = q.1 := by rw [← packL_zero p, ← packL_zero q, hpq]
  have h2 : flatL R r c p.2 = flatL R r c q.2 := by
    funext i
    have := congrFun hpq (Fin.natAdd 1 i)
    change Fin.append (fun _ : Fin 1 => p.1) (flatL R r c p.2) (Fin.natAdd 1 i) = Fin.append (fun _ : Fin 1 => q.1) (flatL R r c q.2) (Fin.natAdd 1 i) at this
    rwa [Fin.append_right, Fin.append_right] at this
  exact Prod.ext h1 ((flatL R r c).injective h2)

theorem packL_surjective (x : Fin (1 + r * c) → R) :
    packL R r c (x 0, (flatL R r c).symm fun i => x (Fin.natAdd 1 i)) = x := by
  funext i
  refine Fin.addCases (fun i => ?_) (fun i => ?_) i
  · rw [packL_apply, Fin.append_left, Fin.fin_one_eq_zero i]
    rfl
  · rw [packL_apply, Fin.append_right, LinearEquiv.apply_symm_apply]

variable {k : Nat} {X : Matrix (Fin r) (Fin c) R} {B : Fin k → Matrix (Fin r) (Fin c) R}

theorem hyperRows_zero : hyperRows X B (Fin.castAdd k 0) = packL R r c (1, X) := by
  exact Fin.append_left (fun _ : Fin 1 => Fin.append (fun _ : Fin 1 => (1 : R)) (flatL R r c X))
    (fun n => Fin.append (fun _ : Fin 1 => (0 : R)) (flatL R r c (B n))) 0

theorem hyperRows_succ (n : Fin k) : hyperRows X B (Fin.natAdd 1 n) = packL R r c (0, B n) := by
  exact Fin.append_right (fun _ : Fin 1 => Fin.append (fun _ : Fin 1 => (1 : R)) (flatL R r c X))
    (fun n => Fin.append (fun _ : Fin 1 => (0 : R)) (flatL R r c (B n))) n

theorem hyperRows_combination (g : Fin (1 + k) → R) : ∑ i, g i • hyperRows X B i =
    packL R r c (g (Fin.castAdd k 0), g (Fin.castAdd k 0) • X + ∑ n, g (Fin.natAdd 1 n) • B n) := by
  rw [Fin.sum_univ_add, Fin.sum_univ_one, hyperRows_zero]
  simp only [hyperRows_succ]
  simp only [← map_smul, ← map_sum, ← map_add]
  congr 1
  refine Prod.ext ?_ ?_
  · simp [Prod.fst_sum]
  · simp [Prod.snd_sum]

theorem hyperRows_indep : LinearIndependent R (hyperRows X B).row ↔ LinearIndependent R B := by
  rw [Fintype.linearIndependent_iff, Fintype.linearIndependent_iff]
  constructor
  · intro h g hg n
    have := h (Fin.append (fun _ : Fin 1 => (0 : R)) g) (by
      change ∑ i, Fin.append (fun _ : Fin 1 => (0 : R)) g i • hyperRows X B i = 0
      rw [hyperRows_combination]
      simp only [Fin.append_left, Fin.append_right, hg, zero_smul, add_zero]
      exact map_zero _) (Fin.natAdd 1 n)
    rwa [Fin.append_right] at this
  · intro h g hg
    change ∑ i, g i • hyperRows X B i = 0 at hg
    rw [hyperRows_combination, ← map_zero (packL R r c)] at hg
    have hp := packL_injective hg
    have h0 : g (Fin.castAdd k 0) = 0 := congrArg Prod.fst hp
    have h1 : g (Fin.castAdd k 0) • X + ∑ n, g (Fin.natAdd 1 n) • B n = 0 := congrArg Prod.snd hp
    rw [h0, zero_smul, zero_add] at h1
    intro i
    refine Fin.addCases (fun i => ?_) (fun i => ?_) i
    · rw [Fin.fin_one_eq_zero i]; exact h0
    · exact h _ h1 i

theorem mem_span_family {M : Type} [AddCommGroup M] [Module R M] {k : Nat} {B : Fin k → M} {x : M} :
    x ∈ Submodule.span R (Set.range B) ↔ ∃ g : Fin k → R, ∑ n, g n • B n = x := Submodule.mem_span_range_iff_exists_fun R

theorem hyperRows_mem (a : R) (Z : Matrix (Fin r) (Fin c) R) :
    packL R r c (a, Z) ∈ Submodule.span R (Set.range (hyperRows X B).row) ↔ Z - a • X ∈ Submodule.span R (Set.range B) := by
  rw [mem_span_family, mem_span_family]
  constructor
  · rintro ⟨g, hg⟩
    change ∑ i, g i • hyperRows X B i = _ at hg
    rw [hyperRows_combination] at hg
    have hp := packL_injective hg
    have h0 : g (Fin.castAdd k 0) = a := congrArg Prod.fst hp
    have h1 : g (Fin.castAdd k 0) • X + ∑ n, g (Fin.natAdd 1 n) • B n = Z := congrArg Prod.snd hp
    exact ⟨fun n => g (Fin.natAdd 1 n), by rw [← h1, h0]; abel⟩
  · rintro ⟨g, hg⟩
    refine ⟨Fin.append (fun _ : Fin 1 => a) g, ?_⟩
    change ∑ i, Fin.append (fun _ : Fin 1 => a) g i • hyperRows X B i = _
    rw [hyperRows_combination]
    simp only [Fin.append_left, Fin.append_right, hg]
    congr 1
    refine Prod.ext rfl ?_
    change a • X + (Z - a • X) = Z
    abel

/-- The non-zero rows of an echelon form span the row span. -/
theorem IsRowEchelon.span_top {m n : Nat} {A H : Matrix (Fin m) (Fin n) R} {U : Matrix (Fin m) (Fin m) R} {pivs : List Nat}
    (hE : IsRowEchelon H pivs) (hmul : H = U * A) (hU : IsUnit U.det) :
    Submodule.span R (Set.range fun (k : Fin pivs.length) => H (Fin.castLE hE.le k)) = Submodule.span R (Set.range A.row) := by
  apply le_antisymm
  · rw [Submodule.span_le]
    rintro _ ⟨k, rfl⟩
    have h1 : H (Fin.castLE hE.le k) = Matrix.vecMul (U (Fin.castLE hE.le k)) A := by
      generalize Fin.castLE hE.le k = k'
      rw [hmul]; rfl
    dsimp only
    rw [h1, ← _root_.range_vecMulLinear]
    exact ⟨_, rfl⟩
  · rw [Submodule.span_le]
    rintro _ ⟨i, rfl⟩
    have : A.row i = Matrix.vecMul (U⁻¹ i) H := by
      have h1 : U⁻¹ * H = A := by rw [hmul, ← Matrix.mul_assoc, Matrix.nonsing_inv_mul _ hU, Matrix.one_mul]
      funext j
      change A i j = _
      conv_lhs => rw [← h1]
      rfl
    rw [this, Matrix.vecMul_eq_sum]
    refine Submodule.sum_mem _ fun k _ => Submodule.smul_mem _ _ ?_
    by_cases hk : (k : Nat) < pivs.length
    · exact Submodule.subset_span ⟨⟨k, hk⟩, rfl⟩
    · have : H k = 0 := by funext j; exact hE.below k j (by omega)
      rw [this]
      exact Submodule.zero_mem _

end

section
variable {α R : Type} [CommRing R] {S : BezoutOps α} {v : α → R} (h : S.Models v)
include h

theorem BezoutOps.Models.unmeta {r c m : Nat} {mh : Mat α} {H : Matrix (Fin m) (Fin (1 + r * c)) R} (hm : mh.Denotes v H) (i : Fin m) :
    ∃ x, S.unmeta r c mh i = some x ∧ x.Denotes v ((flatL R r c).symm fun j => H i (Fin.natAdd 1 j)) := by
  have hS := h.toGcd.toFav.toDomain.toRing.toSemi
  obtain ⟨z, ez, hz⟩ := hS.matZero r c
  set T := (flatL R r c).symm fun j => H i (Fin.natAdd 1 j) with hT
  obtain ⟨m2, e2, h2⟩ := Mat.Denotes.setFold (v := v) T (fun i => i / c) (fun i => i % c) (step := unmetaStep r c mh i) (r * c) (by
    intro m E q hq hm'
    obtain ⟨x, ex, hx⟩ := hm.get i (Fin.natAdd 1 ⟨q, hq⟩)
    obtain ⟨m', em, hm''⟩ := hm'.set ⟨q / c, div_lt_of_lt_mul' hq⟩ ⟨q % c, mod_lt_of_lt_mul hq⟩ x
    refine ⟨m', ?_, hm''.congr rfl rfl ?_⟩
    · unfold unmetaStep
      have ex' : mh.get i (1 + q) = some x := ex
      simp only [latRc_ok hq, ex', Option.bind_eq_bind, Option.bind_some]
      exact em
    · intro a b
      simp only [Matrix.of_apply, Fin.cast_eq_self, Fin.ext_iff]
      by_cases hab : (a : Nat) = q / c ∧ (b : Nat) = q % c
      · rw [if_pos hab, if_pos hab, hx]
        have hab' : finProdFinEquiv (a, b) = ⟨q, hq⟩ := by
          apply Fin.ext
          rw [finProdFinEquiv_apply_val]
          change (b : Nat) + c * (a : Nat) = q
          rw [hab.1, hab.2]
          exact Nat.mod_add_div q c
        rw [hT, flatL_symm_apply, hab']
      · rw [if_neg hab, if_neg hab]) hz
  refine ⟨m2, ?_, h2.congr rfl rfl ?_⟩
  · unfold SemiRingOps.unmeta
    rw [ez]
    exact e2
  · intro a b
    have hex : ∃ i, i < r * c ∧ (a : Nat) = i / c ∧ (b : Nat) = i % c := by
      have hb : 0 < c := Nat.lt_of_le_of_lt (Nat.zero_le _) b.2
      refine ⟨finProdFinEquiv (a, b), (finProdFinEquiv (a, b)).2, ?_, ?_⟩
      · rw [finProdFinEquiv_apply_val]
        change (a : Nat) = ((b : Nat) + c * (a : Nat)) / c
        rw [Nat.add_mul_div_left _ _ hb, Nat.div_eq_of_lt b.2, zero_add]
      · rw [finProdFinEquiv_apply_val]
        change (b : Nat) = ((b : Nat) + c * (a : Nat)) % c
        rw [Nat.add_mul_mod_self_left, Nat.mod_eq_of_lt b.2]
    simp only [Matrix.of_apply, Fin.cast_eq_self]
    rw [if_pos hex]

theorem BezoutOps.Models.affIntersectNonEmpty {r c : Nat} {o1 o2 : Mat α} {l1 l2 : LinLat α} {X1 X2 : Matrix (Fin r) (Fin c) R}
    {N1 N2 : Submodule R (Matrix (Fin r) (Fin c) R)} (ho1 : o1.Denotes v X1) (ho2 : o2.Denotes v X2) (hl1 : l1.Denotes v N1)
    (hl2 : l2.Denotes v N2) :
    ∃ lat, S.affIntersectNonEmpty r c o1 l1 o2 l2 = some lat ∧ lat.Denotes v {Y | Y - X1 ∈ N1 ∧ Y - X2 ∈ N2} := by
  have hD := h.toGcd.toFav.toDomain
  have hS := hD.toRing.toSemi
  haveI := hD.domain
  obtain ⟨k1, B1, hB1, rfl⟩ := hl1
  obtain ⟨k2, B2, hB2, rfl⟩ := hl2
  obtain ⟨m1, e1, hm1⟩ := h.offsetMeta ho1 hB1
  obtain ⟨m2, e2, hm2⟩ := h.offsetMeta ho2 hB2
  obtain ⟨mm, e3, k, B, hB, hBi, hBs⟩ := h.metaRowIntersection ⟨_, _, hm1, hyperRows_indep.2 hB1.indep, rfl⟩ ⟨_, _, hm2, hyperRows_indep.2 hB2.indep, rfl⟩
  have hmem : ∀ Y, (Y - X1 ∈ Submodule.span R (Set.range B1) ∧ Y - X2 ∈ Submodule.span R (Set.range B2)) ↔
      packL R r c (1, Y) ∈ Submodule.span R (Set.range B.row) := by
    intro Y
    rw [hBs, Submodule.mem_inf, hyperRows_mem, hyperRows_mem, one_smul, one_smul]
  simp only [hmem]
  have estart : S.affIntersectNonEmpty r c o1 l1 o2 l2 = S.affIntersectMeta r c mm := by
    unfold BezoutOps.affIntersectNonEmpty
    simp only [e1, e2, e3, Option.bind_eq_bind, Option.bind_some]
  rw [estart]
  unfold BezoutOps.affIntersectMeta
  rw [hB.rows]
  have hempty : (∀ Y, packL R r c (1, Y) ∉ Submodule.span R (Set.range B.row)) →
      AffLat.Denotes v (AffLat.mkEmpty r c : AffLat α) {Y | packL R r c (1, Y) ∈ Submodule.span R (Set.range B.row)} := by
    intro hY
    rw [Set.eq_empty_iff_forall_notMem.2 (show ∀ Y, Y ∉ {Y | packL R r c (1, Y) ∈ Submodule.span R (Set.range B.row)} from hY)]
    exact AffLat.empty_denotes
  by_cases hk : k = 0
  · rw [if_pos hk]
    refine ⟨_, rfl, hempty ?_⟩
    intro Y hY
    subst hk
    rw [Set.range_eq_empty, Submodule.span_empty, Submodule.mem_bot] at hY
    have := congrFun hY 0
    rw [packL_zero] at this
    exact one_ne_zero this
  rw [if_neg hk]
  obtain ⟨res, H, U, e, hH, -, hmul, hdet, hunit, hE, hfav⟩ := h.rowHermite hB
  have hUdet : IsUnit U.det := by rw [hdet]; exact hunit
  have hspan := hE.span_top hmul hUdet
  rw [e, Option.bind_some]
  unfold BezoutOps.affIntersectTest
  obtain ⟨x, ex, hx⟩ := hH.get ⟨0, by omega⟩ 0
  have ex' : res.h.get 0 0 = some x := ex
  have hp0 : v x ≠ 0 → res.pivs[0]? = some 0 := by
    intro hx0
    rw [hx] at hx0
    cases hp : res.pivs[0]? with
    | none =>
      rw [List.getElem?_eq_none_iff] at hp
      exact absurd (hE.below ⟨0, by omega⟩ 0 (by simpa using hp)) hx0
    | some p =>
      rcases Nat.eq_zero_or_pos p with rfl | hp'
      · rfl
      · exact absurd (hE.left ⟨0, by omega⟩ 0 p hp (by simpa using hp')) hx0
  have hfav0 : IsUnit (v x) → S.IsFav v (v x) := by
    intro hu
    rw [hx]
    exact hfav ⟨0, by omega⟩ 0 (hp0 hu.ne_zero)
  have hrest : ∀ i : Fin k, 0 < (i : Nat) → H i 0 = 0 := by
    intro i hi
    cases hp : res.pivs[0]? with
    | none =>
      rw [List.getElem?_eq_none_iff] at hp
      exact hE.below i 0 (by omega)
    | some p =>
      rcases Nat.eq_zero_or_pos p with rfl | hp'
      · exact hE.below_pivot hi hp
      · cases hq : res.pivs[(i : Nat)]? with
        | none =>
          rw [List.getElem?_eq_none_iff] at hq
          exact hE.below i 0 (by omega)
        | some q =>
          have := hE.lt_of_lt hi hp hq
          exact hE.left i 0 q hq (by simp; omega)
  simp only [ex', h.unitIsOne hfav0, Option.bind_eq_bind, Option.bind_some]
  by_cases h1 : v x = 1
  · rw [if_pos (by rw [hS.equal, hS.one]; exact h1)]
    have hp := hp0 (by rw [h1]; exact one_ne_zero)
    have hlen : 0 < res.pivs.length := by
      by_contra hl
      rw [List.getElem?_eq_none_iff.2 (by omega)] at hp
      exact absurd hp (by simp)
    obtain ⟨q, hq⟩ : ∃ q, res.pivs.length = 1 + q := ⟨res.pivs.length - 1, by omega⟩
    have hqk : 1 + q ≤ k := by rw [← hq]; exact hE.le
    obtain ⟨o, eo, ho⟩ := h.unmeta hH ⟨0, by omega⟩
    have eo' : S.unmeta r c res.h 0 = some o := eo
    set X := (flatL R r c).symm fun j => H ⟨0, by omega⟩ (Fin.natAdd 1 j) with hX
    set C : Fin q → Matrix (Fin r) (Fin c) R := fun n => (flatL R r c).symm fun j => H ⟨1 + n, by omega⟩ (Fin.natAdd 1 j) with hC
    have hrow0 : H ⟨0, by omega⟩ = packL R r c (1, X) := by
      rw [← packL_surjective (H ⟨0, by omega⟩), ← h1, hx]
    have hrow : ∀ n : Fin q, H ⟨1 + n, by omega⟩ = packL R r c (0, C n) := by
      intro n
      conv_lhs => rw [← packL_surjective (H ⟨1 + n, by omega⟩)]
      rw [hrest ⟨1 + n, by omega⟩ (by simp)]
    have htop : ∀ i : Fin (1 + q), H (Fin.castLE hqk i) = hyperRows X C i := by
      intro i
      refine Fin.addCases (fun i => ?_) (fun i => ?_) i
      · rw [Fin.fin_one_eq_zero i, hyperRows_zero]
        exact hrow0
      · rw [hyperRows_succ]
        exact hrow i
    have hspan' : Submodule.span R (Set.range (hyperRows X C).row) = Submodule.span R (Set.range B.row) := by
      rw [← hspan]
      congr 1
      ext y
      constructor
      · rintro ⟨i, rfl⟩
        exact ⟨Fin.cast hq.symm i, htop i⟩
      · rintro ⟨i, rfl⟩
        exact ⟨Fin.cast hq i, (htop (Fin.cast hq i)).symm⟩
    have hind : LinearIndependent R (hyperRows X C).row := by
      have := hE.linearIndependent.comp (Fin.cast hq.symm) (Fin.cast_injective _)
      convert this using 1
      funext i
      exact (htop i).symm
    obtain ⟨mats, em, hmats⟩ := MatsDenote.mapM (v := v) (B := C) (f := S.unmetaBasis r c res.h) (by
      intro n
      obtain ⟨y, ey, hy⟩ := hH.get ⟨1 + n, by omega⟩ 0
      rw [hrest ⟨1 + n, by omega⟩ (by simp)] at hy
      obtain ⟨b, eb, hb⟩ := h.unmeta hH ⟨1 + n, by omega⟩
      refine ⟨b, ?_, hb⟩
      unfold SemiRingOps.unmetaBasis
      have ey' : res.h.get (1 + n) 0 = some y := ey
      have hy0 : S.equal y S.zero = true := by rw [hS.equal, hS.zero]; exact hy
      simp only [ey', hy0, assertThat, if_true, Option.bind_eq_bind, Option.bind_some]
      exact eb)
    obtain ⟨lin, el, hlin⟩ := h.latFromBasis hmats (hyperRows_indep.1 hind)
    have hlinD : lin.Denotes v (Submodule.span R (Set.range C)) := ⟨q, C, hlin, rfl⟩
    refine ⟨⟨r, c, .nonEmpty o lin⟩, ?_, ?_⟩
    · unfold BezoutOps.affIntersectFound
      have hne : (decide (res.pivs.length ≠ 0)) = true := decide_eq_true (by omega)
      have hq1 : res.pivs.length - 1 = q := by omega
      simp only [eo', hne, hq1, em, el, assertThat, if_true, Option.bind_eq_bind, Option.bind_some]
      exact h.affFrom ho hlinD
    · convert AffLat.nonEmpty_denotes ho hlinD using 1
      ext Y
      rw [Set.mem_setOf_eq, Set.mem_setOf_eq, ← hspan', hyperRows_mem, one_smul]
  · rw [if_neg (by rw [hS.equal, hS.one]; exact h1)]
    refine ⟨_, rfl, hempty ?_⟩
    intro Y hY
    apply h1
    rw [← hspan, mem_span_family] at hY
    obtain ⟨g, hg⟩ := hY
    have := congrFun hg 0
    rw [packL_zero, Finset.sum_apply] at this
    have hdvd : v x ∣ 1 := by
      change _ = (1 : R) at this
      rw [← this]
      refine Finset.dvd_sum fun i _ => ?_
      rw [Pi.smul_apply, smul_eq_mul]
      by_cases hi : (i : Nat) = 0
      · have : Fin.castLE hE.le i = ⟨0, by omega⟩ := Fin.ext hi
        rw [this, hx]
        exact dvd_mul_left _ _
      · rw [hrest (Fin.castLE hE.le i) (by change 0 < (i : Nat); omega), mul_zero]
        exact dvd_zero _
    have hu := isUnit_of_dvd_one hdvd
    obtain ⟨a, w, ea, -, -⟩ := h.toGcd.toFav.fav x
    rw [← hfav0 hu x a w rfl ea]
    exact h.toGcd.toFav.fav_unit x a w hu ea

theorem BezoutOps.Models.affIntersectPair {r c : Nat} {a b : AffLat α} {P Q : Set (Matrix (Fin r) (Fin c) R)} (ha : a.Denotes v P)
    (hb : b.Denotes v Q) : ∃ lat, S.affIntersectPair r c a b = some lat ∧ lat.Denotes v (P ∩ Q) := by
  obtain ⟨ra, ca, ea⟩ := a
  obtain ⟨rb, cb, eb⟩ := b
  obtain ⟨rfl, rfl, hP⟩ := ha
  obtain ⟨h1, h2, hQ⟩ := hb
  dsimp only at h1 h2 hP hQ
  subst h1 h2
  unfold BezoutOps.affIntersectPair
  simp only [assertThat, beq_self_eq_true, if_true, Option.bind_eq_bind, Option.bind_some]
  cases ea with
  | empty =>
    have hP' : P = ∅ := hP
    refine ⟨_, rfl, ?_⟩
    rw [hP', Set.empty_inter]
    exact AffLat.empty_denotes
  | nonEmpty o1 l1 =>
    cases eb with
    | empty =>
      have hQ' : Q = ∅ := hQ
      refine ⟨_, rfl, ?_⟩
      rw [hQ', Set.inter_empty]
      exact AffLat.empty_denotes
    | nonEmpty o2 l2 =>
      obtain ⟨X1, N1, ho1, hl1, rfl⟩ := hP
      obtain ⟨X2, N2, ho2, hl2, rfl⟩ := hQ
      exact h.affIntersectNonEmpty ho1 ho2 hl1 hl2

theorem BezoutOps.Models.affIntersect {r c : Nat} {lats : List (AffLat α)} {Ps : List (Set (Matrix (Fin r) (Fin c) R))}
    (hl : List.Forall₂ (fun l P => AffLat.Denotes v l P) lats Ps) :
    ∃ lat, S.affIntersect r c lats = some lat ∧ lat.Denotes v {Y | ∀ P ∈ Ps, Y ∈ P} := by
  have hS := h.toGcd.toFav.toDomain.toRing.toSemi
  have hfold : ∀ {lats : List (AffLat α)} {Ps : List (Set (Matrix (Fin r) (Fin c) R))},
      List.Forall₂ (fun l P => AffLat.Denotes v l P) lats Ps → ∀ {a : AffLat α} {Q : Set (Matrix (Fin r) (Fin c) R)}, a.Denotes v Q →
      ∃ lat, lats.foldlM (S.affIntersectPair r c) a = some lat ∧ lat.Denotes v (Q ∩ {Y | ∀ P ∈ Ps, Y ∈ P}) := by
    intro lats Ps hl
    induction hl with
    | nil =>
      intro a Q ha
      refine ⟨a, rfl, ?_⟩
      convert ha using 1
      ext Y; simp
    | @cons b P lats Ps hb hrest ih =>
      intro a Q ha
      obtain ⟨l1, e1, hl1⟩ := h.affIntersectPair ha hb
      obtain ⟨l2, e2, hl2⟩ := ih hl1
      refine ⟨l2, ?_, ?_⟩
      · rw [List.foldlM_cons, e1]
        exact e2
      · convert hl2 using 1
        ext Y
        simp only [Set.mem_inter_iff, Set.mem_setOf_eq, List.mem_cons, forall_eq_or_imp]
        tauto
  cases hl with
  | nil =>
    obtain ⟨z, ez, hz⟩ := hS.matZero r c
    obtain ⟨l, el, hlat⟩ := h.latIntersect (r := r) (c := c) (lats := []) .nil
    refine ⟨⟨r, c, .nonEmpty z l⟩, ?_, ?_⟩
    · unfold BezoutOps.latIntersect at el
      cases hI : S.matIdent (r * c) with
      | none => rw [hI] at el; exact absurd el (by simp)
      | some mm =>
        rw [hI] at el
        have : l = ⟨mm, r, c⟩ := by simpa using el.symm
        unfold BezoutOps.affIntersect
        rw [this]
        simp [ez, hI]
    · convert AffLat.nonEmpty_denotes hz hlat using 1
      ext Y; simp
  | @cons a P lats Ps ha hrest =>
    cases hrest with
    | nil =>
      refine ⟨a, rfl, ?_⟩
      convert ha using 1
      ext Y; simp
    | @cons b Q lats Ps hb hrest =>
      obtain ⟨l1, e1, hl1⟩ := h.affIntersectPair ha hb
      obtain ⟨l2, e2, hl2⟩ := hfold hrest hl1
      refine ⟨l2, ?_, ?_⟩
      · unfold BezoutOps.affIntersect
        dsimp only
        rw [e1]
        exact e2
      · convert hl2 using 1
        ext Y
        simp only [Set.mem_inter_iff, Set.mem_setOf_eq, List.mem_cons, forall_eq_or_imp]
        tauto

omit h in
/-- The differences to a fixed element span the direction of the affine span. -/
theorem affineSpan_mem {R M : Type} [CommRing R] [AddCommGroup M] [Module R M] {k : Nat} (p : Fin (k + 1) → M) (y : M) :
    y - p 0 ∈ Submodule.span R (Set.range fun i : Fin k => p i.succ - p 0) ↔ ∃ t : Fin (k + 1) → R, ∑ i, t i = 1 ∧ ∑ i, t i • p i = y := by
  rw [mem_span_family]
  constructor
  · rintro ⟨g, hg⟩
    refine ⟨Fin.cons (1 - ∑ i, g i) g, ?_, ?_⟩
    · rw [Fin.sum_univ_succ]; simp
    · rw [Fin.sum_univ_succ]
      simp only [Fin.cons_zero, Fin.cons_succ]
      rw [sub_smul, one_smul, Finset.sum_smul]
      have : y = p 0 + ∑ n, g n • (p n.succ - p 0) := by rw [hg]; abel
      rw [this]
      simp only [smul_sub, Finset.sum_sub_distrib]
      abel
  · rintro ⟨t, ht, rfl⟩
    refine ⟨fun i => t i.succ, ?_⟩
    rw [Fin.sum_univ_succ] at ht ⊢
    simp only [smul_sub, Finset.sum_sub_distrib, ← Finset.sum_smul]
    have : t 0 = 1 - ∑ i : Fin k, t i.succ := by rw [← ht]; abel
    rw [this, sub_smul, one_smul]
    abel

theorem BezoutOps.Models.rowAffineSpan {r c : Nat} {m : Mat α} {A : Matrix (Fin r) (Fin c) R} (hm : m.Denotes v A) :
    ∃ lat, S.rowAffineSpan m = some lat ∧
      lat.Denotes v {Y : Matrix (Fin 1) (Fin c) R | ∃ t : Fin r → R, ∑ i, t i = 1 ∧ ∑ i, t i • rowL R c (A i) = Y} := by
  have hD := h.toGcd.toFav.toDomain
  have hS := hD.toRing.toSemi
  haveI := hD.domain
  unfold BezoutOps.rowAffineSpan
  rw [hm.rows, hm.cols]
  cases r with
  | zero =>
    refine ⟨_, rfl, ?_⟩
    have : {Y : Matrix (Fin 1) (Fin c) R | ∃ t : Fin 0 → R, ∑ i, t i = 1 ∧ ∑ i, t i • rowL R c (A i) = Y} = ∅ := by
      rw [Set.eq_empty_iff_forall_notMem]
      rintro Y ⟨t, ht, -⟩
      simp at ht
    rw [this]
    exact AffLat.empty_denotes
  | succ k =>
    rw [if_neg (by omega)]
    obtain ⟨o, eo, ho⟩ : ∃ o, m.getRow 0 = some o ∧ o.Denotes v (rowL R c (A 0)) := by
      obtain ⟨o, eo, ho⟩ := hm.submatrix [0] (List.range c) (r' := 1) (c' := c) rfl (by simp) (fun _ => 0) id (by intro i; simp) (by intro i; simp)
      refine ⟨o, ?_, ho.congr rfl rfl fun i j => rfl⟩
      unfold Mat.getRow
      rw [hm.cols]
      exact eo
    obtain ⟨b, eb, hb⟩ := Mat.construct_denotes (v := v) (r := k) (c := c) (mk := S.rowDiff o m) (A := Matrix.of fun i j => A i.succ j - A 0 j) (by
      intro i j
      obtain ⟨x, ex, hx⟩ := ho.get 0 j
      obtain ⟨y, ey, hy⟩ := hm.get i.succ j
      refine ⟨S.add (S.neg x) y, ?_, ?_⟩
      · unfold BezoutOps.rowDiff
        have ex' : o.get 0 j = some x := ex
        have ey' : m.get (i + 1) j = some y := ey
        rw [ex', Option.bind_some, ey']
        rfl
      · rw [hS.add, hD.toRing.neg, hx, hy, Matrix.of_apply, neg_add_eq_sub]
        rfl)
    obtain ⟨l, el, hl⟩ := h.rowSpan hb
    refine ⟨⟨1, c, .nonEmpty o l⟩, ?_, ?_⟩
    · simp only [eo, eb, el, Nat.add_sub_cancel, Option.bind_eq_bind, Option.bind_some]
      exact h.affFrom ho hl
    · convert AffLat.nonEmpty_denotes ho hl using 1
      ext Y
      rw [Set.mem_setOf_eq, Set.mem_setOf_eq, ← affineSpan_mem]
      have : (fun i : Fin k => rowL R c (Matrix.of (fun i j => A i.succ j - A 0 j) i)) = fun i => rowL R c (A i.succ) - rowL R c (A 0) := by
        funext i
        rw [← map_sub]
        rfl
      rw [this]

theorem BezoutOps.Models.colAffineSpan {r c : Nat} {m : Mat α} {A : Matrix (Fin r) (Fin c) R} (hm : m.Denotes v A) :
    ∃ lat, S.colAffineSpan m = some lat ∧
      lat.Denotes v {Y : Matrix (Fin r) (Fin 1) R | ∃ t : Fin c → R, ∑ j, t j = 1 ∧ ∑ j, t j • colL R r (fun i => A i j) = Y} := by
  have hD := h.toGcd.toFav.toDomain
  have hS := hD.toRing.toSemi
  haveI := hD.domain
  unfold BezoutOps.colAffineSpan
  rw [hm.rows, hm.cols]
  cases c with
  | zero =>
    refine ⟨_, rfl, ?_⟩
    have : {Y : Matrix (Fin r) (Fin 1) R | ∃ t : Fin 0 → R, ∑ j, t j = 1 ∧ ∑ j, t j • colL R r (fun i => A i j) = Y} = ∅ := by
      rw [Set.eq_empty_iff_forall_notMem]
      rintro Y ⟨t, ht, -⟩
      simp at ht
    rw [this]
    exact AffLat.empty_denotes
  | succ k =>
    rw [if_neg (by omega)]
    obtain ⟨o, eo, ho⟩ : ∃ o, m.getCol 0 = some o ∧ o.Denotes v (colL R r (fun i => A i 0)) := by
      obtain ⟨o, eo, ho⟩ := hm.submatrix (List.range r) [0] (r' := r) (c' := 1) (by simp) rfl id (fun _ => 0) (by intro i; simp) (by intro i; simp)
      refine ⟨o, ?_, ho.congr rfl rfl fun i j => rfl⟩
      unfold Mat.getCol
      rw [hm.rows]
      exact eo
    obtain ⟨b, eb, hb⟩ := Mat.construct_denotes (v := v) (r := r) (c := k) (mk := S.colDiff o m) (A := Matrix.of fun i j => A i j.succ - A i 0) (by
      intro i j
      obtain ⟨x, ex, hx⟩ := ho.get i 0
      obtain ⟨y, ey, hy⟩ := hm.get i j.succ
      refine ⟨S.add (S.neg x) y, ?_, ?_⟩
      · unfold BezoutOps.colDiff
        have ex' : o.get i 0 = some x := ex
        have ey' : m.get i (j + 1) = some y := ey
        rw [ex', Option.bind_some, ey']
        rfl
      · rw [hS.add, hD.toRing.neg, hx, hy, Matrix.of_apply, neg_add_eq_sub]
        rfl)
    obtain ⟨l, el, hl⟩ := h.colSpan hb
    refine ⟨⟨r, 1, .nonEmpty o l⟩, ?_, ?_⟩
    · simp only [eo, eb, el, Nat.add_sub_cancel, Option.bind_eq_bind, Option.bind_some]
      exact h.affFrom ho hl
    · convert AffLat.nonEmpty_denotes ho hl using 1
      ext Y
      rw [Set.mem_setOf_eq, Set.mem_setOf_eq, ← affineSpan_mem]
      have : (fun j : Fin k => colL R r (fun i => Matrix.of (fun i (j : Fin k) => A i j.succ - A i 0) i j)) =
          fun j => colL R r (fun i => A i j.succ) - colL R r (fun i => A i 0) := by
        funext i
        rw [← map_sub]
        rfl
      rw [this]

theorem BezoutOps.Models.rowSolutionLattice {r c : Nat} {m y : Mat α} {A : Matrix (Fin r) (Fin c) R} {Y : Matrix (Fin 1) (Fin c) R}
    (hm : m.Denotes v A) (hy : y.Denotes v Y) : ∃ lat, S.rowSolutionLattice m y = some lat ∧ lat.Denotes v {X | X * A = Y} := by
  unfold BezoutOps.rowSolutionLattice
  rcases h.rowSolve hm hy with ⟨x, X, e, hx, hX⟩ | ⟨e, hno⟩
  · obtain ⟨ker, k, B, ek, hB, hmem⟩ := h.rowKernel hm
    have hker : ker.Denotes v (Submodule.span R (Set.range B)) := ⟨k, B, hB, rfl⟩
    refine ⟨⟨1, r, .nonEmpty x ker⟩, ?_, ?_⟩
    · rw [e, Option.bind_some]
      change (S.rowKernel m).bind _ = _
      rw [ek, Option.bind_some, hm.rows]
      exact h.affFrom hx hker
    · convert AffLat.nonEmpty_denotes hx hker using 1
      ext Z
      rw [Set.mem_setOf_eq, Set.mem_setOf_eq, hmem, Matrix.sub_mul, hX, sub_eq_zero]
  · refine ⟨AffLat.mkEmpty 1 r, ?_, ?_⟩
    · rw [e, Option.bind_some]
      unfold BezoutOps.rowSolutionEnd
      rw [hm.rows]
    · have : {X : Matrix (Fin 1) (Fin r) R | X * A = Y} = ∅ := by
        rw [Set.eq_empty_iff_forall_notMem]
        intro X hX
        exact hno ⟨X, hX⟩
      rw [this]
      exact AffLat.empty_denotes

theorem BezoutOps.Models.colSolutionLattice {r c : Nat} {m y : Mat α} {A : Matrix (Fin r) (Fin c) R} {Y : Matrix (Fin r) (Fin 1) R}
    (hm : m.Denotes v A) (hy : y.Denotes v Y) : ∃ lat, S.colSolutionLattice m y = some lat ∧ lat.Denotes v {X | A * X = Y} := by
  unfold BezoutOps.colSolutionLattice
  rcases h.colSolve hm hy with ⟨x, X, e, hx, hX⟩ | ⟨e, hno⟩
  · obtain ⟨ker, k, B, ek, hB, hmem⟩ := h.colKernel hm
    have hker : ker.Denotes v (Submodule.span R (Set.range B)) := ⟨k, B, hB, rfl⟩
    refine ⟨⟨c, 1, .nonEmpty x ker⟩, ?_, ?_⟩
    · rw [e, Option.bind_some]
      change (S.colKernel m).bind _ = _
      rw [ek, Option.bind_some, hm.cols]
      exact h.affFrom hx hker
    · convert AffLat.nonEmpty_denotes hx hker using 1
      ext Z
      rw [Set.mem_setOf_eq, Set.mem_setOf_eq, hmem, Matrix.mul_sub, hX, sub_eq_zero]
  · refine ⟨AffLat.mkEmpty c 1, ?_, ?_⟩
    · rw [e, Option.bind_some]
      unfold BezoutOps.colSolutionEnd
      rw [hm.cols]
    · have : {X : Matrix (Fin c) (Fin 1) R | A * X = Y} = ∅ := by
        rw [Set.eq_empty_iff_forall_notMem]
        intro X hX
        exact hno ⟨X, hX⟩
      rw [this]
      exact AffLat.empty_denotes

end

end Verif.Rings
