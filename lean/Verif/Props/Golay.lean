import Verif.Proofs.GolayEx

/-!
# C170–C176: subsets of 24 points, extended binary Golay codes, modular permutations
-/

namespace Verif.Golay
open Finset Verif.Rings

/-! ## C170: vectors -/

/-- C170: `from_points` gives the set of the listed points (with or without repetitions) if all are below 24 and panics otherwise. -/
theorem C170_from_points (l : List Nat) :
    ((∀ i ∈ l, i < 24) → ∃ v, Vector24.fromPoints l = some v ∧ v.Valid ∧ ∀ i : Fin 24, i ∈ v.set ↔ (i : Nat) ∈ l) ∧
    ((∃ i ∈ l, 24 ≤ i) → Vector24.fromPoints l = none) := by
  refine ⟨fun h => ?_, fromPoints_none⟩
  obtain ⟨v, h1, h2, h3⟩ := fromPoints_spec h
  exact ⟨v, h1, h2, fun i => h3 i⟩

/-- C170: `points` lists the elements of the set in increasing order, `contains` tests membership (and panics from 24 on), `weight` counts;
two vectors are equal iff their sets are. -/
theorem C170_observers (v w : Vector24) (hv : v.Valid) (hw : w.Valid) :
    (v.pts.SortedLT ∧ ∀ i, i ∈ v.pts ↔ ∃ h : i < 24, (⟨i, h⟩ : Fin 24) ∈ v.set) ∧
    (∀ i : Fin 24, v.contains i = some (decide (i ∈ v.set))) ∧ (∀ i, 24 ≤ i → v.contains i = none) ∧
    v.weight = v.set.card ∧ (v = w ↔ v.set = w.set) := by
  refine ⟨⟨?_, fun i => mem_pts⟩, contains_eq v, ?_, weight_eq v, ⟨fun h => by rw [h], vec_ext hv hw⟩⟩
  · exact ((List.sortedLT_range 24).pairwise.filter _).sortedLT
  · intro i hi
    simp [Vector24.contains, assertThat, Nat.not_lt.2 hi]

/-- C170: `+`, `&` and `|` are symmetric difference, intersection and union. -/
theorem C170_operations (v w : Vector24) (hv : v.Valid) (hw : w.Valid) :
    ((v.add w).Valid ∧ (v.add w).set = symmDiff v.set w.set) ∧ ((v.and w).Valid ∧ (v.and w).set = v.set ∩ w.set) ∧
    ((v.or w).Valid ∧ (v.or w).set = v.set ∪ w.set) ∧ (Vector24.zero.Valid ∧ Vector24.zero.set = ∅) :=
  ⟨⟨valid_add hv hw, set_add v w⟩, ⟨valid_and hv, set_and v w⟩, ⟨valid_or hv hw, set_or v w⟩, valid_zero, set_zero⟩

theorem bit_ite (p : Prop) [Decidable p] : bit (if p then 1 else 0) = if p then 1 else 0 := by
  split <;> rfl

/-- C170: `into_row`, `into_col` and `into_mat` give the indicator vector as a 1 × 24, 24 × 1 and (by rows) 4 × 6 matrix. -/
theorem C170_into (v : Vector24) :
    (∃ m, v.intoRow = some m ∧ m.Denotes bit (fun (_ : Fin 1) (j : Fin 24) => indicator v.set j)) ∧
    (∃ m, v.intoCol = some m ∧ m.Denotes bit (fun (i : Fin 24) (_ : Fin 1) => indicator v.set i)) ∧
    (∃ m, v.intoMat = some m ∧ m.Denotes bit (fun (r : Fin 4) (c : Fin 6) => indicator v.set ⟨6 * r + c, by omega⟩)) := by
  obtain ⟨m, h1, h2⟩ := intoRow_spec v
  obtain ⟨m', h3, h4⟩ := intoMat_spec v
  refine ⟨⟨m, h1, ?_⟩, ⟨m.transposed, by rw [Vector24.intoCol, h1]; rfl, ?_⟩, ⟨m', h3, ?_⟩⟩
  · refine (congrArg (Mat.Denotes bit m) ?_).mp (h2.denotes (v := bit))
    funext i j
    simp only [Matrix.of_apply, j.2, dif_pos, bit_ite, indicator]
  · refine (congrArg (Mat.Denotes bit m.transposed) ?_).mp (h2.transposed.denotes (v := bit))
    funext i j
    simp only [Matrix.of_apply, i.2, dif_pos, bit_ite, indicator]
  · refine (congrArg (Mat.Denotes bit m') ?_).mp (h4.denotes (v := bit))
    funext i j
    have : (j : Nat) + 6 * i < 24 := by omega
    simp only [Matrix.of_apply, this, dif_pos, bit_ite, indicator]
    simp only [Nat.add_comm (j : Nat)]

theorem indicator_of_iff {s : Finset (Fin 24)} {x : Fin 24 → ZMod 2} (h : ∀ i, i ∈ s ↔ x i = 1) : indicator s = x := by
  funext i
  rcases two_cases (x i) with e | e <;> simp [indicator, h, e]

/-- C170: `from_row`, `from_col` and `from_mat` read the matrices of `into_row`, `into_col` and `into_mat`; they answer `None` exactly for
matrices of another shape. -/
theorem C170_from (m : Mat (Fin 2)) :
    (∀ A : Matrix (Fin 1) (Fin 24) (ZMod 2), m.Denotes bit A → ∃ v, Vector24.fromRow m = some (some v) ∧ v.Valid ∧ indicator v.set = A 0) ∧
    (¬ (m.rows = 1 ∧ m.cols = 24) → Vector24.fromRow m = some none) ∧
    (∀ A : Matrix (Fin 24) (Fin 1) (ZMod 2), m.Denotes bit A → ∃ v, Vector24.fromCol m = some (some v) ∧ v.Valid ∧ indicator v.set = fun i => A i 0) ∧
    (¬ (m.rows = 24 ∧ m.cols = 1) → Vector24.fromCol m = some none) ∧
    (∀ A : Matrix (Fin 4) (Fin 6) (ZMod 2), m.Denotes bit A → ∃ v, Vector24.fromMat m = some (some v) ∧ v.Valid ∧
      ∀ (r : Fin 4) (c : Fin 6), indicator v.set ⟨6 * r + c, by omega⟩ = A r c) ∧
    (¬ (m.rows = 4 ∧ m.cols = 6) → Vector24.fromMat m = some none) := by
  have row : ∀ (m : Mat (Fin 2)) (A : Matrix (Fin 1) (Fin 24) (ZMod 2)), m.Denotes bit A →
      ∃ v, Vector24.fromRow m = some (some v) ∧ v.Valid ∧ indicator v.set = A 0 := by
    intro m A h
    obtain ⟨f, hf, hA⟩ := (Mat.denotes_iff (0 : Fin 2)).1 h
    obtain ⟨v, h1, h2, h3⟩ := fromRow_spec hf
    refine ⟨v, h1, h2, indicator_of_iff fun i => ?_⟩
    rw [h3, ← hA 0 i, bit_one]
    rfl
  have norow : ∀ m : Mat (Fin 2), ¬ (m.rows = 1 ∧ m.cols = 24) → Vector24.fromRow m = some none := by
    intro m h
    unfold Vector24.fromRow
    rw [if_neg (by simpa using h)]
  have tr : m.transposed.rows = m.cols := by unfold Mat.transposed Mat.rows Mat.cols; cases m.transpose <;> rfl
  have tc : m.transposed.cols = m.rows := by unfold Mat.transposed Mat.rows Mat.cols; cases m.transpose <;> rfl
  refine ⟨row m, norow m, ?_, ?_, ?_, ?_⟩
  · intro A h
    obtain ⟨v, h1, h2, h3⟩ := row m.transposed A.transpose h.transposed
    exact ⟨v, h1, h2, h3⟩
  · intro h
    exact norow _ (by rw [tr, tc]; tauto)
  · intro A h
    obtain ⟨f, hf, hA⟩ := (Mat.denotes_iff (0 : Fin 2)).1 h
    obtain ⟨v, h1, h2, h3⟩ := fromMat_spec hf
    refine ⟨v, h1, h2, fun r c => ?_⟩
    have e := h3 ⟨6 * r + c, by omega⟩
    rw [show ((⟨6 * r + c, by omega⟩ : Fin 24) : Nat) / 6 = r by simp only; omega,
      show ((⟨6 * r + c, by omega⟩ : Fin 24) : Nat) % 6 = c by simp only; omega, ← bit_one, hA r c] at e
    rcases two_cases (A r c) with h | h <;> simp [indicator, e, h]
  · intro h
    unfold Vector24.fromMat
    rw [if_neg (by simpa using h)]

/-! ## C171: the constructor -/

/-- C171: `from_row_basis_matrix` answers every matrix over the field with two elements without panicking: it succeeds iff the matrix is
12 × 24 with independent rows and all non-zero words of the row span have weight at least 8; otherwise it names the first condition that
fails. -/
theorem C171_from_row_basis_matrix (m : Mat (Fin 2)) :
    (¬ (m.rows = 12 ∧ m.cols = 24) → fromRowBasisMatrix m = some (.error .wrongDimensions)) ∧
    ∀ A : Matrix (Fin 12) (Fin 24) (ZMod 2), m.Denotes bit A →
      (¬ LinearIndependent (ZMod 2) A.row → fromRowBasisMatrix m = some (.error .notFullRank)) ∧
      (LinearIndependent (ZMod 2) A.row → (∃ c ∈ rowCode A, c ≠ 0 ∧ hammingNorm c < 8) → fromRowBasisMatrix m = some (.error .lowWeight)) ∧
      (LinearIndependent (ZMod 2) A.row → (∀ c ∈ rowCode A, c ≠ 0 → 8 ≤ hammingNorm c) →
        ∃ g, fromRowBasisMatrix m = some (.ok g) ∧ g.Of (rowCode A)) := by
  refine ⟨fromRow_dims, fun A h => ⟨fromRow_rank h, ?_, ?_⟩⟩
  · rintro hli ⟨c, hc, h0, h8⟩
    exact fromRow_low h hli hc h0 h8
  · intro hli hw
    obtain ⟨g, h1, -⟩ := fromRow_ok h hli hw
    exact ⟨g, h1, m, A, h, h1, rfl⟩

theorem Code.Of.spec {g : Code} {C : Submodule (ZMod 2) (Fin 24 → ZMod 2)} (h : g.Of C) : IsGolay C ∧ CodeOk g C := by
  obtain ⟨m, A, hm, hg, rfl⟩ := h
  by_cases hli : LinearIndependent (ZMod 2) A.row
  · by_cases hw : ∀ x ∈ Submodule.span (ZMod 2) (Set.range A.row), x ≠ 0 → 8 ≤ hammingNorm x
    · obtain ⟨g', h1, h2⟩ := fromRow_ok hm hli hw
      rw [hg] at h1
      cases h1
      exact ⟨golay_span hm hli hw, h2⟩
    · push Not at hw
      obtain ⟨x, hx, h0, h8⟩ := hw
      rw [fromRow_low hm hli hx h0 h8] at hg
      cases hg
  · rw [fromRow_rank hm hli] at hg
    cases hg

/-- C171: the code of a returned object is an extended binary Golay code. -/
theorem C171_golay (g : Code) (C : Submodule (ZMod 2) (Fin 24 → ZMod 2)) (h : g.Of C) : IsGolay C := h.spec.1

/-- C171: `from_col_basis_matrix` is the same for the columns. -/
theorem C171_from_col_basis_matrix (m : Mat (Fin 2)) :
    (¬ (m.rows = 24 ∧ m.cols = 12) → fromColBasisMatrix m = some (.error .wrongDimensions)) ∧
    ∀ A : Matrix (Fin 24) (Fin 12) (ZMod 2), m.Denotes bit A →
      (¬ LinearIndependent (ZMod 2) A.transpose.row → fromColBasisMatrix m = some (.error .notFullRank)) ∧
      (LinearIndependent (ZMod 2) A.transpose.row → (∃ c ∈ rowCode A.transpose, c ≠ 0 ∧ hammingNorm c < 8) →
        fromColBasisMatrix m = some (.error .lowWeight)) ∧
      (LinearIndependent (ZMod 2) A.transpose.row → (∀ c ∈ rowCode A.transpose, c ≠ 0 → 8 ≤ hammingNorm c) →
        ∃ g, fromColBasisMatrix m = some (.ok g) ∧ g.Of (rowCode A.transpose)) := by
  have tr : m.transposed.rows = m.cols := by unfold Mat.transposed Mat.rows Mat.cols; cases m.transpose <;> rfl
  have tc : m.transposed.cols = m.rows := by unfold Mat.transposed Mat.rows Mat.cols; cases m.transpose <;> rfl
  obtain ⟨h1, h2⟩ := C171_from_row_basis_matrix m.transposed
  rw [tr, tc] at h1
  exact ⟨fun h => h1 (by tauto), fun A hA => h2 A.transpose hA.transposed⟩

/-! ## C172: octads -/

/-- C172: `complete_octad` of five points is the only codeword of weight 8 that contains them; it panics for every other number of points. -/
theorem C172_complete_octad (g : Code) (C : Submodule (ZMod 2) (Fin 24 → ZMod 2)) (h : g.Of C) (k : Vector24) (hk : k.Valid) :
    (k.set.card = 5 → ∃ o, g.completeOctad k = some o ∧ o.Valid ∧
      ∀ s : Finset (Fin 24), (indicator s ∈ C ∧ s.card = 8 ∧ k.set ⊆ s) ↔ s = o.set) ∧
    (k.set.card ≠ 5 → g.completeOctad k = none) := by
  refine ⟨fun h5 => ?_, completeOctad_none⟩
  obtain ⟨hC, hg⟩ := h.spec
  obtain ⟨o, h1, h2, h3, h4, h6⟩ := completeOctad_spec hg hk h5
  refine ⟨o, h1, h2, fun s => ⟨?_, ?_⟩⟩
  · rintro ⟨e1, e2, e3⟩
    refine (fam_of hC).octad_unique (mem_famOf.2 e1) h3 e2 h4 ?_
    rw [← h5]
    exact card_le_card (subset_inter e3 h6)
  · rintro rfl
    exact ⟨mem_famOf.1 h3, h4, h6⟩

/-! ## C173: sextets -/

/-- C173: for every iteration order of the hash set, `complete_sextet` of four points gives six foursomes, the first of which is the given
one, that form a sextet; every sextet that contains the given foursome has the same foursomes. It panics for every other number of points. -/
theorem C173_complete_sextet (g : Code) (C : Submodule (ZMod 2) (Fin 24 → ZMod 2)) (h : g.Of C) (four : Vector24) (hv : four.Valid)
    (order : Nat → List Nat → List Nat) (ho : ∀ i l, (order i l).Perm l) :
    (four.set.card = 4 → ∃ p : Fin 6 → Vector24, g.completeSextet order four = some (List.ofFn p) ∧ (∀ i, (p i).Valid) ∧ p 0 = four ∧
      IsSextet C (fun i => (p i).set) ∧
      ∀ T : Fin 6 → Finset (Fin 24), IsSextet C T → (∃ i, T i = four.set) → Set.range T = Set.range fun i => (p i).set) ∧
    (four.set.card ≠ 4 → g.completeSextet order four = none) := by
  refine ⟨fun h4 => ?_, fun h4 => completeSextet_none h4⟩
  obtain ⟨hC, hg⟩ := h.spec
  obtain ⟨p, h1, h2, h3, h5⟩ := completeSextet_spec hC hg hv h4 ho
  refine ⟨p, h1, h3, h2, h5, ?_⟩
  rintro T hT ⟨i, hi⟩
  have hsw : IsSextet C (T ∘ Equiv.swap 0 i) :=
    ⟨fun j => hT.four _, fun j k e => hT.disjoint _ _ (by simpa using e), fun j k e => hT.codeword _ _ (by simpa using e)⟩
  have e0 : (T ∘ Equiv.swap 0 i) 0 = (p 0).set := by simp [hi, h2]
  have hr : Set.range (T ∘ Equiv.swap 0 i) = Set.range T := (Equiv.swap 0 i).surjective.range_comp T
  rw [← hr]
  apply Set.Subset.antisymm
  · rintro _ ⟨j, rfl⟩
    obtain ⟨k, hk⟩ := sextet_unique hC hsw h5 e0 j
    exact ⟨k, hk.symm⟩
  · rintro _ ⟨j, rfl⟩
    obtain ⟨k, hk⟩ := sextet_unique hC h5 hsw e0.symm j
    exact ⟨k, hk.symm⟩

/-! ## C174: orderings -/

/-- C174: `orderings` of a sextet lists the 720 rearrangements of its foursomes, each permutation of the indices once. -/
theorem C174_orderings (p : Fin 6 → Vector24) :
    ∃ perms : List (Equiv.Perm (Fin 6)), perms.Nodup ∧ (∀ σ, σ ∈ perms) ∧
      orderings (List.ofFn p) = some (perms.map fun σ => List.ofFn fun i => p (σ i)) := by
  have hmem := fun q => Verif.Props.Perm.mem_lexArrangements 6 (List.range 6) (by simp) q
  have hnd := Verif.Props.Perm.nodup_lexArrangements 6 (List.range 6) (by simp) List.nodup_range
  generalize hL : Verif.Perm.lexArrangements 6 (List.range 6) = L at *
  have key : ∀ q ∈ L, ∃ σ : Equiv.Perm (Fin 6), q = List.ofFn fun i => (σ i : Nat) := by
    intro q hq
    have hp := (hmem q).1 hq
    have hlen : q.length = 6 := by simpa using hp.length_eq
    have hlt : ∀ i : Fin 6, q[(i : Nat)] < 6 := fun i => by
      have := hp.mem_iff.1 (List.getElem_mem (l := q) (n := i) (by omega))
      simpa using this
    let f : Fin 6 → Fin 6 := fun i => ⟨q[(i : Nat)], hlt i⟩
    have hinj : Function.Injective f := by
      intro i j e
      have hqn : q.Nodup := hp.nodup_iff.2 List.nodup_range
      have e' : q[(i : Nat)] = q[(j : Nat)] := congrArg Fin.val e
      exact Fin.ext ((hqn.getElem_inj_iff).1 e')
    refine ⟨Equiv.ofBijective f (Finite.injective_iff_bijective.1 hinj), ?_⟩
    apply List.ext_getElem
    · simp [hlen]
    · intro i h1 h2
      rw [List.getElem_ofFn]
      rfl
  choose F hF using key
  refine ⟨L.attach.map fun q => F q.1 q.2, ?_, ?_, ?_⟩
  · refine List.Nodup.map_on ?_ (List.nodup_attach.2 hnd)
    intro a _ b _ e
    apply Subtype.ext
    rw [hF a.1 a.2, hF b.1 b.2, e]
  · intro σ
    have hin : (List.ofFn fun i => (σ i : Nat)) ∈ L := by
      rw [hmem]
      rw [List.perm_ext_iff_of_nodup (List.nodup_ofFn.2 fun i j e => σ.injective (Fin.ext e)) List.nodup_range]
      intro a
      rw [List.mem_ofFn', List.mem_range]
      constructor
      · rintro ⟨i, rfl⟩; exact (σ i).2
      · intro ha
        exact ⟨σ.symm ⟨a, ha⟩, by simp⟩
    refine List.mem_map.2 ⟨⟨_, hin⟩, List.mem_attach _ _, ?_⟩
    ext i
    have := congrArg (fun l => l[(i : Nat)]?) (hF _ hin)
    simp only [List.getElem?_ofFn, i.2, dif_pos, Option.some.injEq] at this
    exact this.symm
  · unfold orderings
    rw [hL]
    conv_lhs => rw [← List.attach_map_subtype_val L]
    rw [List.mapM_map]
    rw [mapM_eq_map (g := fun q : {x // x ∈ L} => List.ofFn fun i => p (F q.1 q.2 i))]
    · rw [List.map_map]; rfl
    · intro q _
      simp only [Function.comp]
      conv_lhs => rw [hF q.1 q.2]
      exact orderParts_spec p (F q.1 q.2)

/-! ## C175: the codes of the crate -/

/-- the test of a literal -/
def checkRows (rows : List String) : Bool :=
  ((matrixOfRows rows).bind fun m => (List.range 12).mapM (basisVector m)).map checkBasis == some true

set_option maxRecDepth 100000 in
theorem wiki_checked : checkRows wikiRows = true := by decide +kernel

set_option maxRecDepth 100000 in
theorem qr11_checked : checkRows qr11Rows = true := by decide +kernel

set_option maxRecDepth 100000 in
theorem mog_checked : checkRows mogRows = true := by decide +kernel

theorem built_in {rows : List String} (hc : checkRows rows = true) :
    ∃ g, ebgcFromRows rows = some g ∧ g.Of (rowCode (digits rows)) := by
  replace hc := beq_iff_eq.1 hc
  obtain ⟨basis, hb, hc⟩ := Option.map_eq_some_iff.1 hc
  obtain ⟨m, hm, hb⟩ := Option.bind_eq_some_iff.1 hb
  have hd : m.Denotes bit (digits rows) := by
    refine (congrArg (Mat.Denotes bit m) ?_).mp ((matrixOfRows_rep hm).denotes (v := bit))
    funext i j
    simp only [Matrix.of_apply, bit_ite, digits]
  obtain ⟨hli, hw⟩ := golay_check hd hb hc
  obtain ⟨g, h1, -⟩ := fromRow_ok hd hli hw
  refine ⟨g, ?_, m, digits rows, hd, h1, rfl⟩
  unfold ebgcFromRows
  simp [hm, h1]

/-- C175: the three literals of the crate construct (no panic) extended binary Golay codes. -/
theorem C175_built_in :
    (∃ g, ebgcWiki = some g ∧ g.Of (rowCode (digits wikiRows))) ∧ (∃ g, ebgcQr11 = some g ∧ g.Of (rowCode (digits qr11Rows))) ∧
    (∃ g, ebgcMog = some g ∧ g.Of (rowCode (digits mogRows))) ∧
    IsGolay (rowCode (digits wikiRows)) ∧ IsGolay (rowCode (digits qr11Rows)) ∧ IsGolay (rowCode (digits mogRows)) := by
  have h1 := built_in wiki_checked
  have h2 := built_in qr11_checked
  have h3 := built_in mog_checked
  refine ⟨h1, h2, h3, ?_, ?_, ?_⟩
  · obtain ⟨g, -, h⟩ := h1; exact h.spec.1
  · obtain ⟨g, -, h⟩ := h2; exact h.spec.1
  · obtain ⟨g, -, h⟩ := h3; exact h.spec.1

/-! ## C176: modular permutations -/

/-- C176: `modular_permutation(f)` is `Ok` iff `f` permutes the residues, and then it is the permutation `i ↦ f i`. -/
theorem C176_modular_permutation (n : Nat) (f : Fin n → Fin n) (F : Nat → Nat) (hF : ∀ i : Fin n, F i = f i) :
    ((modularPermutation n F).isSome ↔ Function.Bijective f) ∧
    ∀ p, modularPermutation n F = some p → p = List.ofFn fun i => (f i : Nat) := by
  have hl : ((List.range n).map fun i => F (i % n)) = List.ofFn fun i => (f i : Nat) := by
    apply List.ext_getElem
    · simp
    · intro i h1 h2
      simp only [List.length_map, List.length_range] at h1
      simp only [List.getElem_map, List.getElem_range, List.getElem_ofFn, Nat.mod_eq_of_lt h1]
      exact hF ⟨i, h1⟩
  obtain ⟨h1, h2⟩ := Verif.Props.Perm.C06_fixed_new (List.ofFn fun i => (f i : Nat))
  unfold modularPermutation
  rw [hl]
  refine ⟨?_, h2⟩
  rw [h1, List.length_ofFn]
  constructor
  · intro hp
    have hn := hp.nodup_iff.2 List.nodup_range
    rw [List.nodup_ofFn] at hn
    exact Finite.injective_iff_bijective.1 fun i j e => hn (congrArg Fin.val e)
  · intro hb
    rw [List.perm_ext_iff_of_nodup (List.nodup_ofFn.2 fun i j e => hb.1 (Fin.ext e)) List.nodup_range]
    intro a
    rw [List.mem_ofFn', List.mem_range]
    constructor
    · rintro ⟨i, rfl⟩; exact (f i).2
    · intro ha
      obtain ⟨i, hi⟩ := hb.2 ⟨a, ha⟩
      exact ⟨i, congrArg Fin.val hi⟩

/-! ## Examples -/

/-- C170, concretely: the sixteen-point set of the test in the crate. -/
example : (Vector24.fromPoints [3, 1, 3]).map Vector24.pts = some [1, 3] ∧ Vector24.fromPoints [24] = none ∧
    ((Vector24.fromPoints [1, 3]).bind Vector24.intoMat).bind Vector24.fromMat = some (Vector24.fromPoints [1, 3]) := by decide +kernel

/-- C172 and C173, concretely: the hypotheses hold for the codes of the crate and every set of five (four) points. -/
example : ∃ g C, ebgcMog = some g ∧ g.Of C ∧ ∃ o, g.completeOctad ⟨31⟩ = some o ∧ (Vector24.mk 31).set ⊆ o.set ∧ o.set.card = 8 := by
  obtain ⟨-, -, ⟨g, h1, h2⟩, -⟩ := C175_built_in
  obtain ⟨o, e1, e2, e3⟩ := (C172_complete_octad g _ h2 ⟨31⟩ (show 31 < 2 ^ 24 by decide)).1 (by decide +kernel)
  exact ⟨g, _, h1, h2, o, e1, ((e3 o.set).2 rfl).2.2, ((e3 o.set).2 rfl).2.1⟩

example : ∃ g C, ebgcWiki = some g ∧ g.Of C ∧ (g.completeSextet (fun _ l => l.reverse) ⟨15⟩).isSome := by
  obtain ⟨⟨g, h1, h2⟩, -⟩ := C175_built_in
  obtain ⟨p, e, -⟩ := (C173_complete_sextet g _ h2 ⟨15⟩ (show 15 < 2 ^ 24 by decide) (fun _ l => l.reverse) (fun _ l => List.reverse_perm l)).1 (by decide +kernel)
  exact ⟨g, _, h1, h2, by rw [e]; rfl⟩

/-- C171, concretely: twelve equal rows. -/
example : ∃ m, matrixOfRows (List.replicate 12 "000000000000000000000001") = some m ∧ fromRowBasisMatrix m = some (.error .notFullRank) := by
  obtain ⟨m, hm⟩ : ∃ m, matrixOfRows (List.replicate 12 "000000000000000000000001") = some m :=
    Option.isSome_iff_exists.1 (by decide +kernel)
  refine ⟨m, hm, ((C171_from_row_basis_matrix m).2 _ (matrixOfRows_rep hm).denotes).1 fun hli => ?_⟩
  have := hli.injective (a₁ := 0) (a₂ := 1) (by funext j; rfl)
  exact absurd this (by decide)

/-- C176, concretely: multiplication by 7 permutes the residues modulo 23, squaring does not. -/
example : (modularPermutation 23 fun i => i * 7 % 23).isSome = true ∧ (modularPermutation 23 fun i => i * i % 23) = none := by decide +kernel

end Verif.Golay
