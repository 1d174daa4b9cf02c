import Verif.Proofs.LatticeAffine2
import Mathlib.RingTheory.Localization.Module
import Mathlib.RingTheory.Localization.FractionRing
import Mathlib.LinearAlgebra.Dimension.Constructions
import Mathlib.LinearAlgebra.Matrix.StdBasis

/-! # Lattices as intersections of hyperplanes -/

namespace Verif.Rings

section
variable {R : Type} [CommRing R] [IsDomain R] {r c : Nat}

/-- The entries of a matrix as fractions. -/
noncomputable def fracL (R : Type) [CommRing R] [IsDomain R] (r c : Nat) :
    Matrix (Fin r) (Fin c) R →ₗ[R] Matrix (Fin r) (Fin c) (FractionRing R) where
  toFun A := A.map (algebraMap R (FractionRing R))
  map_add' A B := by ext i j; simp
  map_smul' a A := by ext i j; simp [Algebra.smul_def]

theorem fracL_injective : Function.Injective (fracL R r c) := by
  intro A B h
  ext i j
  exact IsFractionRing.injective R (FractionRing R) (congrFun (congrFun h i) j)

/-- The vector space a lattice generates. -/
noncomputable def fracSpan (N : Submodule R (Matrix (Fin r) (Fin c) R)) : Submodule (FractionRing R) (Matrix (Fin r) (Fin c) (FractionRing R)) :=
  Submodule.span _ (fracL R r c '' N)

theorem fracSpan_span (s : Set (Matrix (Fin r) (Fin c) R)) :
    fracSpan (Submodule.span R s) = Submodule.span _ (fracL R r c '' s) := by
  unfold fracSpan
  apply le_antisymm
  · rw [Submodule.span_le]
    rintro _ ⟨x, hx, rfl⟩
    induction hx using Submodule.span_induction with
    | mem x hx => exact Submodule.subset_span ⟨x, hx, rfl⟩
    | zero => rw [map_zero]; exact Submodule.zero_mem _
    | add x y _ _ hx hy => rw [map_add]; exact Submodule.add_mem _ hx hy
    | smul a x _ hx =>
      rw [map_smul, ← algebraMap_smul (FractionRing R)]
      exact Submodule.smul_mem _ _ hx
  · exact Submodule.span_mono (Set.image_mono Submodule.subset_span)

theorem fracSpan_mono {N N' : Submodule R (Matrix (Fin r) (Fin c) R)} (h : N ≤ N') : fracSpan N ≤ fracSpan N' :=
  Submodule.span_mono (Set.image_mono h)

theorem frac_indep {k : Nat} {B : Fin k → Matrix (Fin r) (Fin c) R} :
    LinearIndependent R B ↔ LinearIndependent (FractionRing R) (fun i => fracL R r c (B i)) := by
  rw [← LinearIndependent.iff_fractionRing R (FractionRing R)]
  exact (LinearMap.linearIndependent_iff (fracL R r c) (LinearMap.ker_eq_bot.2 fracL_injective)).symm

theorem finrank_fracSpan {k : Nat} {B : Fin k → Matrix (Fin r) (Fin c) R} (hB : LinearIndependent R B) :
    Module.finrank (FractionRing R) (fracSpan (Submodule.span R (Set.range B))) = k := by
  rw [fracSpan_span, ← Set.range_comp]
  have := finrank_span_eq_card (frac_indep.1 hB)
  rw [Fintype.card_fin] at this
  exact this

theorem LinLat.Denotes.rank {α : Type} {v : α → R} {lat : LinLat α} {N : Submodule R (Matrix (Fin r) (Fin c) R)} (hl : lat.Denotes v N) :
    lat.rank = Module.finrank (FractionRing R) (fracSpan N) := by
  obtain ⟨k, B, hB, rfl⟩ := hl
  rw [hB.rank, finrank_fracSpan hB.indep]

theorem span_range_append {k q : Nat} (B : Fin k → Matrix (Fin r) (Fin c) R) (E : Fin q → Matrix (Fin r) (Fin c) R) :
    Submodule.span R (Set.range (Fin.append B E)) = Submodule.span R (Set.range B) ⊔ Submodule.span R (Set.range E) := by
  rw [← Submodule.span_union]
  congr 1
  ext x
  constructor
  · rintro ⟨i, rfl⟩
    refine Fin.addCases (fun i => ?_) (fun i => ?_) i
    · rw [Fin.append_left]; exact .inl ⟨i, rfl⟩
    · rw [Fin.append_right]; exact .inr ⟨i, rfl⟩
  · rintro (⟨i, rfl⟩ | ⟨i, rfl⟩)
    · exact ⟨Fin.castAdd q i, Fin.append_left _ _ _⟩
    · exact ⟨Fin.natAdd k i, Fin.append_right _ _ _⟩

theorem append_snoc' {M : Type} {k q : Nat} (B : Fin k → M) (E : Fin q → M) (e : M) :
    Fin.append B (Fin.snoc E e : Fin (q + 1) → M) = (Fin.snoc (Fin.append B E) e : Fin (k + q + 1) → M) := by
  funext i
  refine Fin.addCases (fun i => ?_) (fun i => ?_) i
  · rw [Fin.append_left]
    have : (Fin.castAdd (q + 1) i : Fin (k + (q + 1))) = Fin.castSucc (Fin.castAdd q i) := rfl
    rw [this]
    exact ((Fin.snoc_castSucc (α := fun _ => M) e (Fin.append B E) (Fin.castAdd q i)).trans (Fin.append_left _ _ _)).symm
  · rw [Fin.append_right]
    refine Fin.lastCases ?_ (fun i => ?_) i
    · rw [Fin.snoc_last]
      have : (Fin.natAdd k (Fin.last q) : Fin (k + (q + 1))) = Fin.last (k + q) := rfl
      rw [this]
      exact (Fin.snoc_last (α := fun _ => M) e (Fin.append B E)).symm
    · rw [Fin.snoc_castSucc]
      have : (Fin.natAdd k (Fin.castSucc i) : Fin (k + (q + 1))) = Fin.castSucc (Fin.natAdd k i) := rfl
      rw [this]
      exact ((Fin.snoc_castSucc (α := fun _ => M) e (Fin.append B E) (Fin.natAdd k i)).trans (Fin.append_right _ _ _)).symm

theorem range_snoc' {M : Type} {k : Nat} (B : Fin k → M) (e : M) : Set.range (Fin.snoc B e : Fin (k + 1) → M) = Set.range B ∪ {e} := by
  ext x
  constructor
  · rintro ⟨i, rfl⟩
    refine Fin.lastCases ?_ (fun i => ?_) i
    · rw [Fin.snoc_last]; exact .inr rfl
    · rw [Fin.snoc_castSucc]; exact .inl ⟨i, rfl⟩
  · rintro (⟨i, rfl⟩ | h)
    · exact ⟨i.castSucc, Fin.snoc_castSucc (α := fun _ => M) e B i⟩
    · exact ⟨Fin.last k, by rw [Fin.snoc_last]; exact (Set.mem_singleton_iff.1 h).symm⟩

/-- Adding a vector keeps the rank or keeps the independence. -/
theorem frac_step {k : Nat} {F : Fin k → Matrix (Fin r) (Fin c) R} (hF : LinearIndependent R F) (e : Matrix (Fin r) (Fin c) R) :
    (fracL R r c e ∈ fracSpan (Submodule.span R (Set.range F)) ∧
      fracSpan (Submodule.span R (Set.range F) ⊔ Submodule.span R {e}) = fracSpan (Submodule.span R (Set.range F))) ∨
    LinearIndependent R (Fin.snoc F e : Fin (k + 1) → _) := by
  by_cases he : fracL R r c e ∈ fracSpan (Submodule.span R (Set.range F))
  · refine .inl ⟨he, ?_⟩
    rw [← Submodule.span_union, fracSpan_span, Set.image_union, Submodule.span_union, ← fracSpan_span, Set.image_singleton]
    rw [sup_eq_left, Submodule.span_le, Set.singleton_subset_iff]
    exact he
  · right
    rw [frac_indep]
    have : (fun i => fracL R r c ((Fin.snoc F e : Fin (k + 1) → _) i)) = (Fin.snoc (fun i => fracL R r c (F i)) (fracL R r c e) : Fin (k + 1) → _) := by
      funext i
      refine Fin.lastCases ?_ (fun i => ?_) i
      · rw [Fin.snoc_last, Fin.snoc_last]
      · rw [Fin.snoc_castSucc, Fin.snoc_castSucc]
    rw [this, linearIndependent_finSnoc]
    refine ⟨frac_indep.1 hF, ?_⟩
    rw [fracSpan_span, ← Set.range_comp] at he
    exact he

theorem MatsDenote.snoc {α : Type} {v : α → R} {mats : List (Mat α)} {q : Nat} {E : Fin q → Matrix (Fin r) (Fin c) R} (h : MatsDenote v mats E)
    {m : Mat α} {e : Matrix (Fin r) (Fin c) R} (hm : m.Denotes v e) : MatsDenote v (mats ++ [m]) (Fin.snoc E e : Fin (q + 1) → _) := by
  obtain ⟨hlen, hE⟩ := h
  refine ⟨by simp [hlen], fun n => ?_⟩
  refine Fin.lastCases ?_ (fun n => ?_) n
  · rw [Fin.snoc_last]
    exact ⟨m, by simp [hlen], hm⟩
  · rw [Fin.snoc_castSucc]
    obtain ⟨m', e', hm'⟩ := hE n
    refine ⟨m', ?_, hm'⟩
    rw [List.getElem?_append_left (by rw [hlen]; exact n.2)]
    exact e'

theorem MatsDenote.erase {α : Type} {v : α → R} {mats : List (Mat α)} {q : Nat} {E : Fin (q + 1) → Matrix (Fin r) (Fin c) R} (h : MatsDenote v mats E)
    (i : Fin (q + 1)) : MatsDenote v (mats.eraseIdx i) (fun j => E (i.succAbove j)) := by
  obtain ⟨hlen, hE⟩ := h
  refine ⟨by rw [List.length_eraseIdx_of_lt (by rw [hlen]; exact i.2), hlen]; rfl, fun n => ?_⟩
  obtain ⟨m, e, hm⟩ := hE (i.succAbove n)
  refine ⟨m, ?_, hm⟩
  rw [List.getElem?_eraseIdx, ← e]
  by_cases hn : (n : Nat) < i
  · rw [if_pos hn, Fin.succAbove_of_castSucc_lt _ _ (by exact hn)]
    rfl
  · rw [if_neg hn, Fin.succAbove_of_le_castSucc _ _ (by change (i : Nat) ≤ n; omega)]
    rfl

/-- An element of all the spans that omit one extra basis element is in the span of the first elements. -/
theorem mem_of_mem_omit {M : Type} [AddCommGroup M] [Module R M] {k q : Nat} {B : Fin k → M} {E : Fin (q + 1) → M}
    (hi : LinearIndependent R (Fin.append B E)) {x : M}
    (hx : ∀ i, x ∈ Submodule.span R (Set.range B) ⊔ Submodule.span R (Set.range fun j => E (Fin.succAbove i j))) :
    x ∈ Submodule.span R (Set.range B) := by
  have hrep : ∀ i, ∃ g : Fin (k + (q + 1)) → R, g (Fin.natAdd k i) = 0 ∧ ∑ l, g l • Fin.append B E l = x := by
    intro i
    obtain ⟨y, hy, z, hz, rfl⟩ := Submodule.mem_sup.1 (hx i)
    obtain ⟨g1, rfl⟩ := mem_span_family.1 hy
    obtain ⟨g2, rfl⟩ := mem_span_family.1 hz
    refine ⟨Fin.append g1 (i.insertNth 0 g2), by rw [Fin.append_right, Fin.insertNth_apply_same], ?_⟩
    rw [Fin.sum_univ_add]
    simp only [Fin.append_left, Fin.append_right]
    congr 1
    rw [Fin.sum_univ_succAbove _ i]
    simp
  obtain ⟨g, h0, hg⟩ := hrep 0
  have hz : ∀ i, g (Fin.natAdd k i) = 0 := by
    intro i
    obtain ⟨g', h0', hg'⟩ := hrep i
    have : g = g' := by
      rw [Fintype.linearIndependent_iff] at hi
      funext l
      have := hi (fun l => g l - g' l) (by simp only [sub_smul, Finset.sum_sub_distrib, hg, hg', sub_self]) l
      exact sub_eq_zero.1 this
    rw [this, h0']
  rw [← hg, Fin.sum_univ_add]
  simp only [Fin.append_left, Fin.append_right, hz, zero_smul, Finset.sum_const_zero, add_zero]
  exact Submodule.sum_mem _ fun i _ => Submodule.smul_mem _ _ (Submodule.subset_span ⟨i, rfl⟩)

end

section
variable {α R : Type} [CommRing R] {S : BezoutOps α} {v : α → R} (h : S.Models v)
include h

theorem BezoutOps.Models.latSumPair {a b : LinLat α} {r c : Nat} {N N' : Submodule R (Matrix (Fin r) (Fin c) R)} (ha : a.Denotes v N)
    (hb : b.Denotes v N') : ∃ lat, S.latSumPair r c a b = some lat ∧ lat.Denotes v (N ⊔ N') := by
  obtain ⟨lat, e, hl⟩ := h.latSum (.cons ha (.cons hb .nil))
  refine ⟨lat, e, ?_⟩
  convert hl using 1
  rw [iSup_cons, iSup_cons]
  simp

theorem BezoutOps.Models.unitMat (r c : Nat) (i : Fin r) (j : Fin c) :
    ∃ m, S.unitMat r c i j = some m ∧ m.Denotes v (Matrix.single i j (1 : R)) := by
  have hS := h.toGcd.toFav.toDomain.toRing.toSemi
  refine Mat.construct_denotes ?_
  intro a b
  refine ⟨_, rfl, ?_⟩
  rw [Matrix.single_apply]
  by_cases hab : i = a ∧ j = b
  · rw [if_pos hab, if_pos ⟨congrArg Fin.val hab.1, congrArg Fin.val hab.2⟩, hS.one]
  · have hab' : ¬ ((i : Nat) = a ∧ (j : Nat) = b) := fun h' => hab ⟨Fin.ext h'.1, Fin.ext h'.2⟩
    rw [if_neg hab, if_neg hab', hS.zero]

omit [CommRing R] h in
theorem mapM_range_ofFn {β : Type} {q : Nat} {f : Nat → Option β} {g : Fin q → β} (hf : ∀ i : Fin q, f i = some (g i)) :
    (List.range q).mapM f = some (List.ofFn g) := by
  induction q with
  | zero => rfl
  | succ q ih =>
    rw [List.range_succ, List.mapM_append, ih (g := fun i => g i.castSucc) fun i => hf i.castSucc, List.ofFn_succ_last]
    have := hf (Fin.last q)
    simp only [Fin.val_last] at this
    simp [this]

/-- What holds during the first loop: the lattice is the sum of the original one and the vectors added so far. -/
structure HyperInv (v : α → R) {k r c : Nat} (B : Fin k → Matrix (Fin r) (Fin c) R) (st : HyperState α) (q : Nat)
    (E : Fin q → Matrix (Fin r) (Fin c) R) : Prop where
  basis : MatsDenote v st.basis E
  lat : st.lat.Denotes v (Submodule.span R (Set.range (Fin.append B E)))
  indep : LinearIndependent R (Fin.append B E)

theorem BezoutOps.Models.hyperStep [IsDomain R] {k r c q : Nat} {B : Fin k → Matrix (Fin r) (Fin c) R} {st : HyperState α}
    {E : Fin q → Matrix (Fin r) (Fin c) R} (hI : HyperInv v B st q E) (i : Fin r) (j : Fin c) :
    ∃ st' q', ∃ E' : Fin q' → Matrix (Fin r) (Fin c) R, S.hyperStep r c st (i, j) = some st' ∧ HyperInv v B st' q' E' ∧
      Submodule.span R (Set.range (Fin.append B E)) ≤ Submodule.span R (Set.range (Fin.append B E')) ∧
      fracL R r c (Matrix.single i j 1) ∈ fracSpan (Submodule.span R (Set.range (Fin.append B E'))) := by
  obtain ⟨w, ew, hw⟩ := h.unitMat r c i j
  obtain ⟨one, e1, h1⟩ := h.latFromBasis (mats := [w]) (B := fun _ : Fin 1 => Matrix.single i j (1 : R)) ⟨rfl, fun n => ⟨w, by rw [Fin.fin_one_eq_zero n]; rfl, hw⟩⟩
    (by
      rw [Fintype.linearIndependent_iff]
      intro g hg n
      rw [Fin.fin_one_eq_zero n]
      simp only [Fin.sum_univ_one] at hg
      have := congrFun (congrFun hg i) j
      simpa using this)
  obtain ⟨new, e2, h2⟩ := h.latSumPair hI.lat ⟨1, _, h1, rfl⟩
  have hsing : Set.range (fun _ : Fin 1 => Matrix.single i j (1 : R)) = {Matrix.single i j 1} := by simp
  rw [hsing] at h2
  have estart : S.hyperStep r c st (i, j) = hyperKeep st new w := by
    unfold BezoutOps.hyperStep
    simp only [ew, e1, e2, Option.bind_eq_bind, Option.bind_some]
  rw [estart]
  unfold hyperKeep
  have hr0 : st.lat.rank = k + q := by rw [hI.lat.rank, finrank_fracSpan hI.indep]
  rcases frac_step hI.indep (Matrix.single i j (1 : R)) with ⟨hin, heq⟩ | hind
  · have hrank : new.rank = st.lat.rank := by rw [h2.rank, heq, ← hI.lat.rank]
    refine ⟨st, q, E, ?_, hI, le_refl _, hin⟩
    rw [hrank]
    simp [assertThat]
  · have hspan : Submodule.span R (Set.range (Fin.append B E)) ⊔ Submodule.span R {Matrix.single i j 1} =
        Submodule.span R (Set.range (Fin.append B (Fin.snoc E (Matrix.single i j 1) : Fin (q + 1) → _))) := by
      rw [append_snoc', range_snoc', Submodule.span_union]
    rw [← append_snoc'] at hind
    have hrank : new.rank = st.lat.rank + 1 := by
      rw [h2.rank, hspan, hr0, finrank_fracSpan hind]
      rfl
    refine ⟨⟨new, st.basis ++ [w]⟩, q + 1, Fin.snoc E (Matrix.single i j 1), ?_, ⟨hI.basis.snoc hw, ?_, hind⟩, ?_, ?_⟩
    · rw [hrank]
      simp [assertThat]
    · rw [← hspan]; exact h2
    · rw [← hspan]; exact le_sup_left
    · refine Submodule.subset_span ⟨_, ?_, rfl⟩
      rw [← hspan]
      exact (le_sup_right : Submodule.span R {Matrix.single i j (1 : R)} ≤ _) (Submodule.mem_span_singleton_self _)

theorem BezoutOps.Models.hyperLoop [IsDomain R] {k r c : Nat} {B : Fin k → Matrix (Fin r) (Fin c) R} (ps : List (Nat × Nat))
    (hps : ∀ p ∈ ps, p.1 < r ∧ p.2 < c) {st : HyperState α} {q : Nat} {E : Fin q → Matrix (Fin r) (Fin c) R} (hI : HyperInv v B st q E) :
    ∃ st' q', ∃ E' : Fin q' → Matrix (Fin r) (Fin c) R, ps.foldlM (S.hyperStep r c) st = some st' ∧ HyperInv v B st' q' E' ∧
      Submodule.span R (Set.range (Fin.append B E)) ≤ Submodule.span R (Set.range (Fin.append B E')) ∧
      ∀ (i : Fin r) (j : Fin c), ((i : Nat), (j : Nat)) ∈ ps →
        fracL R r c (Matrix.single i j 1) ∈ fracSpan (Submodule.span R (Set.range (Fin.append B E'))) := by
  induction ps generalizing st q E with
  | nil => exact ⟨st, q, E, rfl, hI, le_refl _, by simp⟩
  | cons p ps ih =>
    have hp := hps p (by simp)
    obtain ⟨st1, q1, E1, e1, hI1, hle1, hin1⟩ := h.hyperStep hI ⟨p.1, hp.1⟩ ⟨p.2, hp.2⟩
    obtain ⟨st2, q2, E2, e2, hI2, hle2, hin2⟩ := ih (fun p hp => hps p (by simp [hp])) hI1
    refine ⟨st2, q2, E2, ?_, hI2, hle1.trans hle2, ?_⟩
    · rw [List.foldlM_cons]
      have e1' : S.hyperStep r c st p = some st1 := e1
      rw [e1']
      exact e2
    · intro i j hij
      rcases List.mem_cons.1 hij with rfl | hij
      · exact fracSpan_mono hle2 hin1
      · exact hin2 i j hij

theorem BezoutOps.Models.hyperplanes {k r c : Nat} {B : Fin k → Matrix (Fin r) (Fin c) R} {lat : LinLat α} (hl : lat.HasBasis v B) :
    ∃ ls, ∃ Hs : List (Submodule R (Matrix (Fin r) (Fin c) R)), S.hyperplanes lat = some ls ∧
      List.Forall₂ (fun l H => LinLat.Denotes v l H) ls Hs ∧ ls.length + k = r * c ∧ (∀ l ∈ ls, l.rank + 1 = r * c) ∧
      (k < r * c → (⨅ H ∈ Hs, H) = Submodule.span R (Set.range B)) := by
  haveI := h.toGcd.toFav.toDomain.domain
  have hI0 : HyperInv v B ⟨lat, []⟩ 0 Fin.elim0 := by
    have happ : Fin.append B (Fin.elim0 : Fin 0 → Matrix (Fin r) (Fin c) R) = B := by
      funext i
      exact Fin.append_left B Fin.elim0 i
    refine ⟨⟨rfl, fun n => n.elim0⟩, ?_, ?_⟩
    · rw [happ]; exact ⟨k, B, hl, rfl⟩
    · rw [happ]; exact hl.indep
  have hmem : ∀ p, p ∈ indexPairs r c ↔ p.1 < r ∧ p.2 < c := by
    rintro ⟨i, j⟩
    simp [indexPairs]
  obtain ⟨st, q, E, e, hI, -, hin⟩ := h.hyperLoop (indexPairs r c) (fun p hp => (hmem p).1 hp) hI0
  have htop : fracSpan (Submodule.span R (Set.range (Fin.append B E))) = ⊤ := by
    rw [eq_top_iff]
    rintro A -
    rw [Matrix.matrix_eq_sum_single A]
    refine Submodule.sum_mem _ fun i _ => Submodule.sum_mem _ fun j _ => ?_
    have := Submodule.smul_mem _ (A i j) (hin i j ((hmem _).2 ⟨i.2, j.2⟩))
    convert this using 1
    ext a b
    change _ = A i j * algebraMap R (FractionRing R) (Matrix.single i j (1 : R) a b)
    rw [Matrix.single_apply, Matrix.single_apply]
    by_cases hab : i = a ∧ j = b <;> simp [hab]
  have hrank : k + q = r * c := by
    rw [← finrank_fracSpan hI.indep, htop, finrank_top, Module.finrank_matrix]
    simp
  have hlenq : st.basis.length = q := hI.basis.1
  have hB : LinearIndependent R B := hl.indep
  have hplane : ∀ i : Fin q, ∃ l, ∃ H : Submodule R (Matrix (Fin r) (Fin c) R), S.hyperplane lat st.basis i = some l ∧ l.Denotes v H ∧ l.rank + 1 = r * c ∧
      ∃ (q' : Nat) (hq : q = q' + 1), H = Submodule.span R (Set.range B) ⊔
        Submodule.span R (Set.range fun j => E (Fin.cast hq.symm ((Fin.cast hq i).succAbove j))) := by
    intro i
    cases q with
    | zero => exact i.elim0
    | succ q =>
      have hind : LinearIndependent R (Fin.append B fun j => E (i.succAbove j)) := by
        have := hI.indep.comp (Fin.append (fun a => Fin.castAdd (q + 1) a) fun j => Fin.natAdd k (i.succAbove j)) (by
          intro a b
          refine Fin.addCases (fun a => ?_) (fun a => ?_) a <;> refine Fin.addCases (fun b => ?_) (fun b => ?_) b
          · rw [Fin.append_left, Fin.append_left]; intro hab
            rw [Fin.castAdd_inj.1 hab]
          · rw [Fin.append_left, Fin.append_right]; intro hab
            have := congrArg Fin.val hab
            simp at this; omega
          · rw [Fin.append_left, Fin.append_right]; intro hab
            have := congrArg Fin.val hab
            simp at this; omega
          · rw [Fin.append_right, Fin.append_right]; intro hab
            have h1 := (Fin.natAdd_inj k).1 hab
            rw [Fin.succAbove_right_injective h1])
        convert this using 1
        funext a
        refine Fin.addCases (fun a => ?_) (fun a => ?_) a
        · simp [Function.comp]
        · simp [Function.comp]
      have hE : LinearIndependent R (fun j => E (i.succAbove j)) := by
        have := hind.comp (Fin.natAdd k) (Fin.natAdd_injective _ _)
        convert this using 1
        funext a
        exact (Fin.append_right B (fun j => E (i.succAbove j)) a).symm
      obtain ⟨o, eo, ho⟩ := h.latFromBasis (hI.basis.erase i) hE
      obtain ⟨l, el, hlat⟩ := h.latSumPair ⟨k, B, hl, rfl⟩ ⟨q, _, ho, rfl⟩
      refine ⟨l, _, ?_, hlat, ?_, q, rfl, rfl⟩
      · unfold BezoutOps.hyperplane
        rw [hl.rows, hl.cols]
        simp only [eo, Option.bind_eq_bind, Option.bind_some]
        exact el
      · rw [hlat.rank, ← span_range_append, finrank_fracSpan hind]
        omega
  choose ls Hs hls hH hrk hHs using hplane
  refine ⟨List.ofFn ls, List.ofFn Hs, ?_, ?_, ?_, ?_, ?_⟩
  · unfold BezoutOps.hyperplanes
    rw [hl.rows, hl.cols]
    have hr0 : (st.lat.rank == r * c) = true := by
      rw [hI.lat.rank, finrank_fracSpan hI.indep, hrank]
      simp
    simp only [e, hr0, hlenq, assertThat, if_true, Option.bind_eq_bind, Option.bind_some]
    clear hHs hH hrk hin hrank htop hlenq
    exact mapM_range_ofFn hls
  · rw [List.forall₂_iff_get]
    refine ⟨by simp, ?_⟩
    intro i h1 h2
    simp only [List.get_eq_getElem, List.getElem_ofFn]
    exact hH _
  · simp; omega
  · intro l hl'
    obtain ⟨i, rfl⟩ := List.mem_ofFn.1 hl'
    exact hrk i
  · intro hlt
    obtain ⟨q', rfl⟩ : ∃ q', q = q' + 1 := ⟨q - 1, by omega⟩
    apply le_antisymm
    · intro x hx
      refine mem_of_mem_omit hI.indep fun i => ?_
      obtain ⟨q2, hq2, he⟩ := hHs i
      have : q' = q2 := by omega
      subst this
      have hx' : x ∈ Hs i := by
        simp only [Submodule.mem_iInf] at hx
        exact hx (Hs i) (List.mem_ofFn.2 ⟨i, rfl⟩)
      rw [he] at hx'
      exact hx'
    · refine le_iInf₂ fun H hH' => ?_
      obtain ⟨i, rfl⟩ := List.mem_ofFn.1 hH'
      obtain ⟨q2, hq2, he⟩ := hHs i
      rw [he]
      exact le_sup_left

end

end Verif.Rings
