import Verif.Proofs.GeometryHyper
import Verif.Proofs.Numbers

/-! # Vectors, simplices, hyperplanes and embedded subspaces -/

namespace Verif.Geometry

open Verif.Rings

theorem ratOrd_models : ratOrd.Models (id : ℚ → ℚ) := ⟨ratOps_models, fun _ _ => rfl⟩

/-- The plane. -/
def exSpace : Space := ⟨3, 7⟩
def exPoint (x y : ℚ) : Vec ℚ := ⟨exSpace, [x, y]⟩

theorem exPoint_in (x y : ℚ) : (exPoint x y).In exSpace := ⟨rfl, rfl⟩

/-- The vertices of a triangle. -/
def exTriangle : List (Vec ℚ) := [exPoint 0 0, exPoint 2 0, exPoint 0 3]

theorem exTriangle_mem : ∀ p ∈ exTriangle, p.In exSpace := by
  intro p hp
  simp only [exTriangle, List.mem_cons, List.not_mem_nil, or_false] at hp
  rcases hp with rfl | rfl | rfl <;> exact exPoint_in _ _

section
variable {α K : Type} [Field K] [LinearOrder K] [IsStrictOrderedRing K] {S : OrdOps α} {v : α → K} {d : Nat} {sp : Space}

/-! ## C117: vectors -/

/-- C117: `Vector::new` succeeds exactly when there are as many coordinates as the space has dimensions, and keeps the coordinates. -/
theorem C117_new (v : α → K) (l : List α) :
    (l.length + 1 = sp.dim → ∃ p, Vec.new sp l = some p ∧ p.In sp ∧ ∀ (i : Fin l.length), p.val v l.length i = v l[i]) ∧
    (l.length + 1 ≠ sp.dim → Vec.new sp l = none) := by
  constructor
  · intro h
    refine ⟨⟨sp, l⟩, ?_, ⟨rfl, h⟩, fun i => Vec.val_mk l i i.2⟩
    unfold Vec.new
    rw [Space.linDim_eq h.symm]
    simp [assertThat]
  · intro h
    unfold Vec.new
    rcases Nat.eq_zero_or_pos sp.dim with h0 | h0
    · rw [Space.linDim_empty h0]; rfl
    · rw [Space.linDim_eq (d := sp.dim - 1) (by omega)]
      have : ¬ sp.dim - 1 = l.length := by omega
      simp [assertThat, this]

/-- C117: `Vector::construct` calls the function for every coordinate. -/
theorem C117_construct (hd : sp.dim = d + 1) (v : α → K) (f : Nat → α) :
    ∃ p, Vec.construct sp (fun i => some (f i)) = some p ∧ p.In sp ∧ ∀ i : Fin d, p.val v d i = v (f i) := by
  obtain ⟨p, h1, h2, h3⟩ := Vec.construct_some v (f := fun i => some (f i)) (x := fun i : Fin d => v (f i)) hd fun i => ⟨_, rfl, rfl⟩
  exact ⟨p, h1, h2, fun i => by rw [h3]⟩

/-- C117: negation, addition, subtraction and scalar multiplication are those of the vector space, and the zero vector is zero. -/
theorem C117_arithmetic (h : S.Models v) (hd : sp.dim = d + 1) {p q : Vec α} (hp : p.In sp) (hq : q.In sp) (c : α) :
    ((S.vecNeg p).In sp ∧ (S.vecNeg p).val v d = -p.val v d) ∧
    (∃ r, S.vecAdd p q = some r ∧ r.In sp ∧ r.val v d = p.val v d + q.val v d) ∧
    (∃ r, S.vecSub p q = some r ∧ r.In sp ∧ r.val v d = p.val v d - q.val v d) ∧
    ((S.vecScalarMul p c).In sp ∧ (S.vecScalarMul p c).val v d = v c • p.val v d) ∧
    (∃ r, S.vecZero sp = some r ∧ r.In sp ∧ r.val v d = 0) :=
  ⟨h.vecNeg hd hp, h.vecAdd hd hp hq, h.vecSub hd hp hq, h.vecScalarMul hd hp c, h.vecZero hd⟩

/-- C117: adding, subtracting or comparing vectors of different spaces panics; they are not equal. -/
theorem C117_spaces (S : OrdOps α) {p q : Vec α} (hne : p.space ≠ q.space) :
    S.vecAdd p q = none ∧ S.vecSub p q = none ∧ S.vecCmp p q = none ∧ S.vecEq p q = some false := by
  have e : commonSpace p.space q.space = none := by unfold commonSpace; rw [if_neg hne]
  refine ⟨?_, ?_, ?_, ?_⟩
  · unfold OrdOps.vecAdd; rw [e]; rfl
  · unfold OrdOps.vecSub OrdOps.vecAdd OrdOps.vecNeg; rw [e]; rfl
  · unfold OrdOps.vecCmp; rw [e]; rfl
  · unfold OrdOps.vecEq; rw [if_neg hne]

/-- C117: equality of vectors is equality of the points, and the order is the lexicographic order of the coordinates. -/
theorem C117_compare (h : S.Models v) (hd : sp.dim = d + 1) {p q : Vec α} (hp : p.In sp) (hq : q.In sp) :
    S.vecEq p q = some (decide (p.val v d = q.val v d)) ∧
    S.vecCmp p q = some (compare (toLex (p.val v d)) (toLex (q.val v d))) := ⟨h.vecEq hd hp hq, h.vecCmp hd hp hq⟩

/-- C117: the matrices with given rows or columns, and the row and the column of a vector. -/
theorem C117_to_matrix (h : S.Models v) (hd : sp.dim = d + 1) {vecs : List (Vec α)} (hv : ∀ p ∈ vecs, p.In sp) {q : Vec α} (hq : q.In sp) :
    (∃ m, rowsFromVectors sp vecs = some m ∧ m.Denotes v (Matrix.of fun (i : Fin vecs.length) (j : Fin d) => vecs[i].val v d j)) ∧
    (∃ m, colsFromVectors sp vecs = some m ∧ m.Denotes v (Matrix.of fun (j : Fin d) (i : Fin vecs.length) => vecs[i].val v d j)) ∧
    (∃ m, q.intoRow = some m ∧ m.Denotes v (Matrix.of fun (_ : Fin 1) (j : Fin d) => q.val v d j)) ∧
    (∃ m, q.intoCol = some m ∧ m.Denotes v (Matrix.of fun (j : Fin d) (_ : Fin 1) => q.val v d j)) := by
  refine ⟨rowsFromVectors_denotes S.zero hd hv, ?_, intoRow_denotes S.zero hd hq, intoCol_denotes S.zero hd hq⟩
  obtain ⟨m, h1, h2⟩ := rowsFromVectors_denotes (v := v) S.zero hd hv
  exact ⟨m.transposed, by unfold colsFromVectors; rw [h1]; rfl, h2.transposed⟩

/-- C117: the vectors in the rows and the columns of a matrix. -/
theorem C117_from_matrix (hd : sp.dim = d + 1) {m : Mat α} {r : Nat} {A : Matrix (Fin r) (Fin d) K} (hm : m.Denotes v A)
    {m' : Mat α} {B : Matrix (Fin d) (Fin r) K} (hm' : m'.Denotes v B) :
    (∃ l, vectorsFromRows sp m = some l ∧ (∀ p ∈ l, p.In sp) ∧ l.map (Vec.val v d) = List.ofFn fun i => A i) ∧
    (∃ l, vectorsFromCols sp m' = some l ∧ (∀ p ∈ l, p.In sp) ∧ l.map (Vec.val v d) = List.ofFn fun i => fun j => B j i) := by
  have key : ∀ {m : Mat α} {A : Matrix (Fin r) (Fin d) K}, m.Denotes v A →
      ∃ l, vectorsFromRows sp m = some l ∧ (∀ p ∈ l, p.In sp) ∧ l.map (Vec.val v d) = List.ofFn fun i => A i := by
    intro m A hm
    obtain ⟨l, h1, h2, e, h3⟩ := vectorsFromRows_some hd hm
    refine ⟨l, h1, h2, ?_⟩
    apply List.ext_getElem (by simp [e])
    intro i a b
    simpa using h3 ⟨i, by simpa using b⟩
  refine ⟨key hm, ?_⟩
  obtain ⟨l, h1, h2, h3⟩ := key hm'.transposed
  refine ⟨l, ?_, h2, h3⟩
  unfold vectorsFromCols
  rw [Space.linDim_eq hd, hm'.rows]
  simpa [assertThat] using h1

/-- C117: one vector from a matrix with one row or one column. -/
theorem C117_from_row (hd : sp.dim = d + 1) {m : Mat α} {A : Matrix (Fin 1) (Fin d) K} (hm : m.Denotes v A)
    {m' : Mat α} {B : Matrix (Fin d) (Fin 1) K} (hm' : m'.Denotes v B) :
    (∃ p, vectorFromRow sp m = some p ∧ p.In sp ∧ p.val v d = A 0) ∧
    (∃ p, vectorFromCol sp m' = some p ∧ p.In sp ∧ p.val v d = fun i => B i 0) :=
  ⟨vectorFromRow_some hd hm, vectorFromCol_some hd hm'⟩

example := C117_arithmetic ratOrd_models (d := 2) rfl (exPoint_in 1 2) (exPoint_in 3 4) 5
example := C117_compare ratOrd_models (d := 2) rfl (exPoint_in 1 2) (exPoint_in 1 (-4))
example : ratOrd.vecCmp (exPoint 1 2) (exPoint 1 (-4)) = some .gt := by decide +kernel
example := C117_spaces ratOrd (p := exPoint 1 2) (q := ⟨⟨3, 8⟩, [1, 2]⟩) (by decide)
example := C117_to_matrix ratOrd_models (d := 2) rfl exTriangle_mem (exPoint_in 1 2)
example : ∃ m A B, Mat.Denotes (id : ℚ → ℚ) m (A : Matrix (Fin 3) (Fin 2) ℚ) ∧ Mat.Denotes (id : ℚ → ℚ) m.transposed (B : Matrix (Fin 2) (Fin 3) ℚ) :=
  have ⟨⟨m, _, h⟩, _⟩ := C117_to_matrix ratOrd_models (d := 2) rfl exTriangle_mem (exPoint_in 1 2)
  ⟨m, _, _, h, h.transposed⟩

/-! ## C118: determinant, rank, affine independence -/

/-- C118: `determinant` is the determinant of the matrix with these rows, and panics unless there are as many vectors as dimensions. -/
theorem C118_determinant (h : S.Models v) (hd : sp.dim = d + 1) {vecs : List (Vec α)} (hv : ∀ p ∈ vecs, p.In sp) :
    (∀ hl : vecs.length = d, ∃ x, S.determinant sp vecs = some x ∧ v x = (Matrix.of fun i : Fin d => (vecs[i]).val v d).det) ∧
    (vecs.length ≠ d → S.determinant sp vecs = none) :=
  ⟨fun hl => h.determinant hd hv hl, fun hl => h.determinant_shape hd hv hl⟩

/-- C118: `rank` is the dimension of the linear span. -/
theorem C118_rank (h : S.Models v) (hd : sp.dim = d + 1) {vecs : List (Vec α)} (hv : ∀ p ∈ vecs, p.In sp) :
    S.rank sp vecs = some (Module.finrank K (Submodule.span K (pointSet v d vecs))) := h.rank hd hv

/-- C118: `are_points_affine_independent` decides affine independence. -/
theorem C118_affine_independent (h : S.Models v) (hd : sp.dim = d + 1) {points : List (Vec α)} (hv : ∀ p ∈ points, p.In sp) :
    ∃ b, S.affIndep sp points = some b ∧ (b = true ↔ AffineIndependent K fun i : Fin points.length => points[i].val v d) := h.affIndep hd hv

/-- C118: a vector of another space makes them panic. -/
theorem C118_spaces (S : OrdOps α) {points : List (Vec α)} {p : Vec α} (hp : p ∈ points) (hne : sp ≠ p.space) :
    S.determinant sp points = none ∧ S.rank sp points = none ∧ S.affIndep sp points = none := by
  have e : (points.all fun p => decide (sp = p.space)) = false := by
    rw [List.all_eq_false]
    exact ⟨p, hp, by simpa using hne⟩
  have e2 : rowsFromVectors sp points = none := by
    unfold rowsFromVectors
    simp [e, assertThat]
  refine ⟨?_, ?_, ?_⟩
  · unfold OrdOps.determinant; rw [e2]; rfl
  · unfold OrdOps.rank; rw [e2]; rfl
  · unfold OrdOps.affIndep; simp [e, assertThat]

theorem exTriangle_indep : Independent (id : ℚ → ℚ) 2 exSpace exTriangle := by
  refine ⟨exTriangle_mem, ?_⟩
  refine (indep_cons (exPoint 0 0) [exPoint 2 0, exPoint 0 3]).2 ?_
  rw [Fintype.linearIndependent_iff]
  intro g hg
  have e0 := congrFun hg 0
  have e1 := congrFun hg 1
  change ∑ i : Fin 2, _ = _ at hg
  have h0 := congrFun hg (0 : Fin 2)
  have h1 := congrFun hg (1 : Fin 2)
  rw [Fin.sum_univ_two] at h0 h1
  simp [Vec.val, exPoint] at h0 h1
  intro i
  change Fin 2 at i
  fin_cases i
  · exact h0
  · exact h1

example := C118_determinant ratOrd_models (d := 2) rfl exTriangle_mem
example := C118_rank ratOrd_models (d := 2) rfl exTriangle_mem
example : ratOrd.affIndep exSpace exTriangle = some true := by
  obtain ⟨b, h1, h2⟩ := C118_affine_independent ratOrd_models (d := 2) rfl exTriangle_mem
  rw [h1, h2.2 exTriangle_indep.indep]

/-! ## C119: simplices -/

/-- C119: `Simplex::new` gives a simplex exactly for affinely independent points. The vertices are the given points, sorted. -/
theorem C119_new (h : S.Models v) (hd : sp.dim = d + 1) {points : List (Vec α)} (hp : ∀ p ∈ points, p.In sp) :
    ((AffineIndependent K fun i : Fin points.length => points[i].val v d) →
      ∃ s, S.simplexNew sp points = some (.ok s) ∧ s.Valid v d sp ∧ s.points.Perm points) ∧
    ((¬ AffineIndependent K fun i : Fin points.length => points[i].val v d) → S.simplexNew sp points = some (.error ())) := h.simplexNew hd hp

/-- C119: two simplices are equal exactly when they have the same vertices, in whatever order they were given. -/
theorem C119_equal (h : S.Models v) (hd : sp.dim = d + 1) {s t : Simplex α} (hs : s.Valid v d sp) (ht : t.Valid v d sp) :
    S.simplexEq s t = some (decide (pointSet v d s.points = pointSet v d t.points)) := h.simplexEq hd hs ht

/-- C119: `skeleton(k)` lists the faces with `k` vertices, each once. -/
theorem C119_skeleton (h : S.Models v) (hd : sp.dim = d + 1) {s : Simplex α} (hs : s.Valid v d sp) (k : Int) :
    ∃ l, S.skeleton s k = some l ∧ (∀ t ∈ l, t.Valid v d sp) ∧ (k < 0 → l = []) ∧
      (0 ≤ k → (l.map Simplex.points).Perm (s.points.sublistsLen k.toNat)) := by
  by_cases hk : k < 0
  · exact ⟨[], by unfold OrdOps.skeleton; rw [if_pos hk], by simp, fun _ => rfl, fun h0 => absurd h0 (by omega)⟩
  · obtain ⟨l, h1, h2, h3⟩ := h.skeleton hd hs k.toNat
    exact ⟨l, by rw [← h1]; congr 1; omega, h2, fun h0 => absurd h0 hk, fun _ => h3⟩

/-- C119: `facets` lists the faces with one vertex less, each once: `n` of them for `n` vertices. `ridges` lists those with two vertices
less. -/
theorem C119_facets (h : S.Models v) (hd : sp.dim = d + 1) {s : Simplex α} (hs : s.Valid v d sp) :
    (∃ l, S.facets s = some l ∧ (s.points ≠ [] → (l.map Simplex.points).Perm (s.points.sublistsLen (s.points.length - 1)) ∧ l.length = s.points.length)) ∧
    (∃ l, S.ridges s = some l ∧ (2 ≤ s.points.length → (l.map Simplex.points).Perm (s.points.sublistsLen (s.points.length - 2)))) := by
  constructor
  · obtain ⟨l, h1, -, -, h2⟩ := C119_skeleton h hd hs ((s.points.length : Int) - 1)
    refine ⟨l, h1, fun hne => ?_⟩
    have hpos : 0 < s.points.length := List.length_pos_of_ne_nil hne
    have h3 := h2 (by omega)
    rw [show ((s.points.length : Int) - 1).toNat = s.points.length - 1 by omega] at h3
    refine ⟨h3, ?_⟩
    have h4 := h3.length_eq
    rw [List.length_map, List.length_sublistsLen] at h4
    rw [h4]
    obtain ⟨m, hm⟩ := Nat.exists_eq_succ_of_ne_zero hpos.ne'
    rw [hm, Nat.succ_sub_one, Nat.choose_succ_self_right]
  · obtain ⟨l, h1, -, -, h2⟩ := C119_skeleton h hd hs ((s.points.length : Int) - 2)
    refine ⟨l, h1, fun hne => ?_⟩
    have h3 := h2 (by omega)
    rw [show ((s.points.length : Int) - 2).toNat = s.points.length - 2 by omega] at h3
    exact h3

/-- C119: `facet(k)` is the face without vertex number `k`; it panics if there is no such vertex. -/
theorem C119_facet (h : S.Models v) (hd : sp.dim = d + 1) {s : Simplex α} (hs : s.Valid v d sp) (k : Nat) :
    (k < s.points.length → ∃ t, S.facet s k = some t ∧ t.Valid v d sp ∧ t.points = s.points.eraseIdx k) ∧
    (s.points.length ≤ k → S.facet s k = none) := by
  refine ⟨fun hk => ⟨_, h.facet hd hs hk, hs.sublist (List.eraseIdx_sublist _ _), rfl⟩, fun hk => ?_⟩
  unfold OrdOps.facet
  by_cases h1 : k ≤ s.points.length <;> simp [assertThat, h1, Nat.not_lt.2 hk]

/-- C119: `sub_simplices` lists all faces, the empty one and the whole simplex included, each once. -/
theorem C119_sub_simplices (h : S.Models v) (hd : sp.dim = d + 1) {s : Simplex α} (hs : s.Valid v d sp) :
    (∃ l, S.subSimplices s = some l ∧ (∀ t ∈ l, t.Valid v d sp) ∧ (l.map Simplex.points).Perm s.points.sublists) ∧
    (∃ l, S.subSimplicesNotNull s = some l ∧ (∀ t ∈ l, t.Valid v d sp) ∧
      ∀ P, P ∈ l.map Simplex.points ↔ P.Sublist s.points ∧ P ≠ []) ∧
    (∃ l, S.properSubSimplicesNotNull s = some l ∧ (∀ t ∈ l, t.Valid v d sp) ∧
      ∀ P, P ∈ l.map Simplex.points ↔ P.Sublist s.points ∧ P ≠ [] ∧ P ≠ s.points) := by
  obtain ⟨l, h1, h2, h3⟩ := h.subSimplices hd hs
  have hm : ∀ P, P ∈ l.map Simplex.points ↔ P.Sublist s.points := fun P => by rw [h3.mem_iff, List.mem_sublists]
  refine ⟨⟨l, h1, h2, h3⟩, ⟨_, by unfold OrdOps.subSimplicesNotNull; rw [h1]; rfl, ?_, ?_⟩,
    ⟨_, by unfold OrdOps.properSubSimplicesNotNull; rw [h1]; rfl, ?_, ?_⟩⟩
  · intro t ht; exact h2 t (List.mem_of_mem_filter ht)
  · intro P
    rw [← hm, List.mem_map, List.mem_map]
    constructor
    · rintro ⟨t, ht, rfl⟩
      obtain ⟨ha, hb⟩ := List.mem_filter.1 ht
      exact ⟨⟨t, ha, rfl⟩, by simpa [Simplex.n] using hb⟩
    · rintro ⟨⟨t, ht, rfl⟩, hne⟩
      exact ⟨t, List.mem_filter.2 ⟨ht, by simpa [Simplex.n] using hne⟩, rfl⟩
  · intro t ht; exact h2 t (List.mem_of_mem_filter ht)
  · intro P
    rw [List.mem_map]
    constructor
    · rintro ⟨t, ht, rfl⟩
      obtain ⟨ha, hb⟩ := List.mem_filter.1 ht
      have hb' : t.points ≠ [] ∧ t.points.length ≠ s.points.length := by simpa [Simplex.n] using hb
      exact ⟨(hm _).1 (List.mem_map.2 ⟨t, ha, rfl⟩), hb'.1, fun e => hb'.2 (by rw [e])⟩
    · rintro ⟨ha, hb, hc⟩
      obtain ⟨t, ht, rfl⟩ := List.mem_map.1 ((hm P).2 ha)
      refine ⟨t, List.mem_filter.2 ⟨ht, ?_⟩, rfl⟩
      have : t.points ≠ [] ∧ t.points.length ≠ s.points.length := ⟨hb, fun e => hc (ha.eq_of_length e)⟩
      simpa [Simplex.n] using this

/-- A triangle. -/
theorem exTriangle_simplex : ∃ s, ratOrd.simplexNew exSpace exTriangle = some (.ok s) ∧ s.Valid (id : ℚ → ℚ) 2 exSpace ∧ s.points.Perm exTriangle :=
  (C119_new ratOrd_models (d := 2) rfl exTriangle_mem).1 exTriangle_indep.indep

example : ∃ s l, ratOrd.simplexNew exSpace exTriangle = some (.ok s) ∧ ratOrd.facets s = some l ∧ l.length = 3 := by
  obtain ⟨s, h1, h2, h3⟩ := exTriangle_simplex
  obtain ⟨l, l1, l2⟩ := (C119_facets ratOrd_models (d := 2) rfl h2).1
  have e : s.points.length = 3 := h3.length_eq
  exact ⟨s, l, h1, l1, by rw [← e]; exact (l2 (fun h0 => by rw [h0] at e; simp at e)).2⟩

/-! ## C120: oriented simplices -/

/-- C120: `new_with_positive_point` gives an oriented simplex exactly if there are as many points as the space has dimensions, they are
affinely independent and the reference point is not in their affine span. The reference point is the one given. -/
theorem C120_new (h : S.Models v) (hd : sp.dim = d + 1) {points : List (Vec α)} {ref : Vec α} (hp : ∀ p ∈ points, p.In sp) (hr : ref.In sp) :
    ((points.length = d ∧ (AffineIndependent K fun i : Fin points.length => points[i].val v d) ∧
        ref.val v d ∉ affineSpan K (pointSet v d points)) →
      ∃ o, S.newPositive sp points ref = some (.ok o) ∧ o.Valid S v d sp ∧ o.simplex.points.Perm points ∧
        (d ≠ 0 → ∃ f, o.orientation = some (f, ref))) ∧
    (¬ (points.length = d ∧ (AffineIndependent K fun i : Fin points.length => points[i].val v d) ∧
        ref.val v d ∉ affineSpan K (pointSet v d points)) → S.newPositive sp points ref = some (.error ())) := by
  rcases h.newPositive hd hp hr with ⟨h1, h2, h3, h4⟩ | ⟨h1, h2⟩
  · exact ⟨fun _ => h4, fun hn => absurd ⟨h1, h2, h3⟩ hn⟩
  · exact ⟨fun hh => absurd hh h1, fun _ => h2⟩

/-- C120: `classify_point` tells the sides of the hyperplane apart: neutral on the hyperplane, positive strictly on the side of the
reference point, negative strictly on the other side. -/
theorem C120_classify (h : S.Models v) (hd : sp.dim = d + 1) {o : OSimplex α} (ho : o.Valid S v d sp) {f : Bool} {ref : Vec α}
    (he : o.orientation = some (f, ref)) {x : Vec α} (hx : x.In sp) :
    ∃ side, S.classify o x = some side ∧ (side = .neutral ↔ x.val v d ∈ affineSpan K (pointSet v d o.simplex.points)) ∧
      (side = .positive ↔ (affineSpan K (pointSet v d o.simplex.points)).SSameSide (ref.val v d) (x.val v d)) ∧
      (side = .negative ↔ (affineSpan K (pointSet v d o.simplex.points)).SOppSide (ref.val v d) (x.val v d)) := ho.classify h hd he hx

/-- C120: `flip` swaps the two sides and keeps the simplex. -/
theorem C120_flip (h : S.Models v) (hd : sp.dim = d + 1) {o : OSimplex α} (ho : o.Valid S v d sp) :
    ∃ o', S.flip o = some o' ∧ o'.Valid S v d sp ∧ o'.simplex = o.simplex ∧ ∀ x : Vec α, x.In sp →
      ∃ a b, S.classify o x = some a ∧ S.classify o' x = some b ∧
        (a = .positive ↔ b = .negative) ∧ (a = .neutral ↔ b = .neutral) ∧ (a = .negative ↔ b = .positive) := ho.flip h hd

/-- C120: `new_with_negative_point` succeeds exactly when `new_with_positive_point` does, and puts the reference point on the negative
side (in a space with at least one dimension). -/
theorem C120_new_negative (h : S.Models v) (hd : sp.dim = d + 1) {points : List (Vec α)} {ref : Vec α} (hp : ∀ p ∈ points, p.In sp) (hr : ref.In sp) :
    (S.newPositive sp points ref = some (.error ()) → S.newNegative sp points ref = some (.error ())) ∧
    (∀ o, S.newPositive sp points ref = some (.ok o) → ∃ o', S.newNegative sp points ref = some (.ok o') ∧ o'.Valid S v d sp ∧
      o'.simplex = o.simplex ∧ (d ≠ 0 → S.classify o' ref = some .negative)) := by
  constructor
  · intro e
    unfold OrdOps.newNegative
    rw [e]; rfl
  · intro o e
    rcases h.newPositive hd hp hr with ⟨-, -, -, o1, e1, h1, -, h2⟩ | ⟨-, e1⟩
    · rw [e] at e1
      obtain rfl : o = o1 := by simpa using e1
      obtain ⟨o', f1, f2, f3, f4⟩ := h1.flip h hd
      refine ⟨o', ?_, f2, f3, ?_⟩
      · unfold OrdOps.newNegative
        rw [e]
        simp only [Option.bind_eq_bind, Option.bind_some, f1, Option.map_some]
      · intro hd0
        obtain ⟨f, hf⟩ := h2 hd0
        obtain ⟨a, b, a1, b1, hab, -⟩ := f4 ref hr
        have := (h1.reference f ref hf).2
        rw [a1] at this
        rw [b1, hab.1 (Option.some.inj this)]
    · rw [e] at e1
      simp at e1

/-- C120: `oriented_facets` of a simplex of full dimension lists its facets, each oriented towards the opposite vertex. -/
theorem C120_oriented_facets (h : S.Models v) (hd : sp.dim = d + 1) {s : Simplex α} (hs : s.Valid v d sp) (hl : s.points.length = d + 1) :
    ∃ os, S.orientedFacets s = some os ∧ os.length = d + 1 ∧ ∀ (k : Nat) (hk : k < os.length) (hk' : k < s.points.length),
      os[k].Valid S v d sp ∧ os[k].simplex.points = s.points.eraseIdx k ∧ (d ≠ 0 → ∃ f, os[k].orientation = some (f, s.points[k])) :=
  h.orientedFacets hd hs hl

/-- C120: `oriented_facets` panics on a simplex that is not of full dimension. -/
theorem C120_oriented_facets_dim (S : OrdOps α) (s : Simplex α) (hl : s.space.dim ≠ s.points.length) : S.orientedFacets s = none := by
  unfold OrdOps.orientedFacets Simplex.n
  simp [assertThat, hl]

/-- The line through two vertices of the triangle. -/
theorem exLine : ∃ o f, ratOrd.newPositive exSpace [exPoint 2 0, exPoint 0 3] (exPoint 0 0) = some (.ok o) ∧ o.Valid ratOrd (id : ℚ → ℚ) 2 exSpace ∧
    o.orientation = some (f, exPoint 0 0) := by
  have hmem : ∀ p ∈ [exPoint 2 0, exPoint 0 3], p.In exSpace := by
    intro p hp
    simp only [List.mem_cons, List.not_mem_nil, or_false] at hp
    rcases hp with rfl | rfl <;> exact exPoint_in _ _
  rcases ratOrd_models.newPositive (d := 2) rfl hmem (exPoint_in 0 0) with ⟨-, -, -, o, h1, h2, -, h3⟩ | ⟨-, h1⟩
  · obtain ⟨f, hf⟩ := h3 (by decide)
    exact ⟨o, f, h1, h2, hf⟩
  · exfalso
    have h2 : ((ratOrd.newPositive exSpace [exPoint 2 0, exPoint 0 3] (exPoint 0 0)).map fun r => r.toOption.isSome) = some true := by decide +kernel
    rw [h1] at h2
    simp [Except.toOption] at h2

example : ∃ o f, (∃ side, ratOrd.classify o (exPoint 5 5) = some side) ∧ o.orientation = some (f, exPoint 0 0) := by
  obtain ⟨o, f, h1, h2, h3⟩ := exLine
  obtain ⟨side, s1, -⟩ := C120_classify ratOrd_models (d := 2) rfl h2 h3 (exPoint_in 5 5)
  exact ⟨o, f, ⟨side, s1⟩, h3⟩

example : ((ratOrd.newPositive exSpace [exPoint 2 0, exPoint 0 3] (exPoint 0 0)).bind fun r => r.toOption.bind fun o =>
    ratOrd.classify o (exPoint 5 5)) = some .negative := by decide +kernel

/-! ## C121: intersecting a hyperplane with a line segment -/

/-- C121: `intersect_line` reports the sides of the two end points; it reports a point of intersection exactly if they are strictly on
different sides, and the point is on the hyperplane and strictly between the end points. -/
theorem C121_intersect_line (h : S.Models v) (hd : sp.dim = d + 1) {o : OSimplex α} (ho : o.Valid S v d sp) {a b : Vec α} (ha : a.In sp) (hb : b.In sp) :
    ∃ res, S.intersectLine o a b = some res ∧ S.classify o a = some res.first ∧ S.classify o b = some res.second ∧
      (res.intersection = none ↔ ¬ ((res.first = .negative ∧ res.second = .positive) ∨ (res.first = .positive ∧ res.second = .negative))) ∧
      ∀ p, res.intersection = some p → p.In sp ∧ p.val v d ∈ affineSpan K (pointSet v d o.simplex.points) ∧
        Sbtw K (a.val v d) (p.val v d) (b.val v d) := ho.intersectLine h hd ha hb

example : ∃ o res, ratOrd.intersectLine o (exPoint 0 0) (exPoint 5 5) = some res := by
  obtain ⟨o, f, h1, h2, h3⟩ := exLine
  obtain ⟨res, r1, -⟩ := C121_intersect_line ratOrd_models (d := 2) rfl h2 (exPoint_in 0 0) (exPoint_in 5 5)
  exact ⟨o, res, r1⟩

example : ((ratOrd.newPositive exSpace [exPoint 2 0, exPoint 0 3] (exPoint 0 0)).bind fun r => r.toOption.bind fun o =>
    (ratOrd.intersectLine o (exPoint 0 0) (exPoint 5 5)).bind fun res => res.intersection.map fun p => p.coords) = some [6 / 5, 6 / 5] := by
  decide +kernel

/-! ## C122: embedded subspaces -/

/-- C122: `new_affine_span` succeeds exactly for affinely independent points. The new space has one affine dimension for every point, and
the returned points of the new space are `0, e_0, e_1, ..`. -/
theorem C122_affine_span (h : S.Models v) (ident : Nat) (hd : sp.dim = d + 1) {points : List (Vec α)} (hp : ∀ p ∈ points, p.In sp) :
    ((AffineIndependent K fun i : Fin points.length => points[i].val v d) → ∃ e pts, S.spanNew ident sp points = some (.ok (e, pts)) ∧ e.Valid v d ∧
      e.ambient = sp ∧ e.embedded.ident = ident ∧ e.points = points ∧ pts.length = points.length ∧ (∀ p ∈ pts, p.In e.embedded) ∧
      ∀ (i : Nat) (hi : i < pts.length), pts[i].val v (points.length - 1) = fun j : Fin (points.length - 1) => if i = (j : Nat) + 1 then 1 else 0) ∧
    ((¬ AffineIndependent K fun i : Fin points.length => points[i].val v d) → S.spanNew ident sp points = some (.error ())) := h.spanNew ident hd hp

/-- C122: `embed_point` is an injective affine map onto the affine span of the points, which sends `0, e_0, e_1, ..` to the points in
order; `unembed_point` is its inverse, and is `None` exactly outside the affine span. -/
theorem C122_embed (h : S.Models v) {e : EmbSub α} {n : Nat} (he : e.Valid v d) (hn : e.points.length = n + 1) :
    ∃ f : (Fin n → K) →ᵃ[K] (Fin d → K), Function.Injective f ∧ Set.range f = affineSpan K (pointSet v d e.points) ∧
      f 0 = (e.points[0]'(by omega)).val v d ∧
      (∀ i : Fin n, f (Pi.single i 1) = (e.points[(i : Nat) + 1]'(by have := i.2; omega)).val v d) ∧
      (∀ pt : Vec α, pt.In e.embedded → ∃ q, S.embedPoint e pt = some q ∧ q.In e.ambient ∧ q.val v d = f (pt.val v n)) ∧
      (∀ pt : Vec α, pt.In e.ambient →
        (∃ q, S.unembedPoint e pt = some (some q) ∧ q.In e.embedded ∧ f (q.val v n) = pt.val v d) ∨
        (S.unembedPoint e pt = some none ∧ pt.val v d ∉ affineSpan K (pointSet v d e.points))) ∧
      (∀ s : Simplex α, s.Valid v n e.embedded →
        ∃ t, S.embedSimplex e s = some t ∧ t.Valid v d e.ambient ∧ pointSet v d t.points = f '' pointSet v n s.points) ∧
      (∀ s : Simplex α, s.Valid v d e.ambient →
        (∃ t, S.unembedSimplex e s = some (some t) ∧ t.Valid v n e.embedded ∧ f '' pointSet v n t.points = pointSet v d s.points) ∨
        (S.unembedSimplex e s = some none ∧ ¬ pointSet v d s.points ⊆ affineSpan K (pointSet v d e.points))) := by
  obtain ⟨f, f1, f2, f3, f4, f5, f6⟩ := he.embed h hn
  exact ⟨f, f1, f2, f3, f4, f5, f6, fun s hs => he.embedSimplex h hn f1 f5 hs, fun s hs => he.unembedSimplex h hn f1 f2 f6 hs⟩

/-- C122: `unembed_point` never panics, and is `None` exactly for the points outside the subspace, also for the empty subspace. -/
theorem C122_unembed (h : S.Models v) {e : EmbSub α} (he : e.Valid v d) {pt : Vec α} (hp : pt.In e.ambient) :
    (∃ r, S.unembedPoint e pt = some r) ∧ (S.unembedPoint e pt = some none ↔ pt.val v d ∉ affineSpan K (pointSet v d e.points)) :=
  he.unembed_none h hp

/-- C122: `extend_dimension_by_point_unsafe` with a point outside the subspace gives an embedding of the subspace into a space with one more
dimension and an embedding of that space, such that the composition is the old embedding and the returned point is sent to the new point. -/
theorem C122_extend (h : S.Models v) {e : EmbSub α} (ident : Nat) (he : e.Valid v d) {pt : Vec α} (hp : pt.In e.ambient)
    (hnot : pt.val v d ∉ affineSpan K (pointSet v d e.points)) :
    ∃ e1 e2 last, S.extendByPoint ident e pt = some (e1, e2, last) ∧ e1.Valid v e.points.length ∧ e2.Valid v d ∧
      e1.embedded = e.embedded ∧ e1.ambient = e2.embedded ∧ e2.ambient = e.ambient ∧ e2.embedded.dim = e.embedded.dim + 1 ∧
      e2.points = e.points ++ [pt] ∧ last.In e2.embedded ∧
      (∃ q, S.embedPoint e2 last = some q ∧ q.val v d = pt.val v d) ∧
      ∀ x : Vec α, x.In e.embedded → ∃ w y z, S.embedPoint e x = some w ∧ S.embedPoint e1 x = some y ∧ S.embedPoint e2 y = some z ∧
        z.val v d = w.val v d := by
  obtain ⟨e1, e2, last, h1, h2, h3, h4, h5, h6, h7, h8, h9, h10, h11⟩ := he.extendByPoint h ident rfl hp hnot
  obtain ⟨m1, m2⟩ := he.extendByPoint_maps h rfl h2 h3 h4 h5 h8 h9 h10 h11
  refine ⟨e1, e2, last, h1, h2, h3, h4, h5, h6, ?_, h8, h9, m1, m2⟩
  rw [h3.embedded, h8, he.embedded]
  simp

/-- C122: with a point of the subspace it panics (the debug assertion). -/
theorem C122_extend_panics (h : S.Models v) {e : EmbSub α} (ident : Nat) (he : e.Valid v d) {pt : Vec α} (hp : pt.In e.ambient)
    (hin : pt.val v d ∈ affineSpan K (pointSet v d e.points)) : S.extendByPoint ident e pt = none := by
  obtain ⟨⟨r, hr⟩, h2⟩ := he.unembed_none h hp
  have hne : r ≠ none := by
    rintro rfl
    exact (h2.1 hr) hin
  obtain ⟨q, rfl⟩ := Option.ne_none_iff_exists'.1 hne
  unfold OrdOps.extendByPoint
  simp [hp.space, assertThat, hr]

/-- A line in the plane. -/
theorem exSub : ∃ e pts, ratOrd.spanNew 9 exSpace [exPoint 2 0, exPoint 0 3] = some (.ok (e, pts)) ∧ e.Valid (id : ℚ → ℚ) 2 ∧
    e.points = [exPoint 2 0, exPoint 0 3] ∧ e.ambient = exSpace := by
  have hi := exTriangle_indep.sublist (l' := [exPoint 2 0, exPoint 0 3]) (by unfold exTriangle; simp)
  obtain ⟨e, pts, h1, h2, h3, h4, h5, -⟩ := (C122_affine_span ratOrd_models 9 (d := 2) rfl hi.mem).1 hi.indep
  exact ⟨e, pts, h1, h2, h5, h3⟩

example : ∃ e : EmbSub ℚ, ∃ f : (Fin 1 → ℚ) →ᵃ[ℚ] (Fin 2 → ℚ), Function.Injective f ∧ e.points = [exPoint 2 0, exPoint 0 3] := by
  obtain ⟨e, pts, h1, h2, h3, h4⟩ := exSub
  obtain ⟨f, f1, -⟩ := C122_embed ratOrd_models (n := 1) h2 (by rw [h3]; rfl)
  exact ⟨e, f, f1, h3⟩

/-! ## C123: the span of dependent points -/

/-- C123: `new_affine_span_linearly_dependent` never panics, and gives an embedded subspace with the same affine span as the points. -/
theorem C123_affine_span_dependent (h : S.Models v) (ident : Nat) (hd : sp.dim = d + 1) {points : List (Vec α)} (hp : ∀ p ∈ points, p.In sp) :
    ∃ e, S.affineSpanDependent ident sp points = some e ∧ e.Valid v d ∧ e.ambient = sp ∧ e.embedded.ident = ident ∧
      affineSpan K (pointSet v d e.points) = affineSpan K (pointSet v d points) := h.affineSpanDependent ident hd hp

example := C123_affine_span_dependent ratOrd_models 9 (d := 2) rfl exTriangle_mem
/-! ## C124: a subspace as an intersection of hyperplanes -/

/-- C124: `as_hyperplane_intersection` of a non-empty subspace gives as many oriented hyperplanes as the codimension, and a point is in the
subspace exactly if it is in all of them. -/
theorem C124_hyperplanes (h : S.Models v) {e : EmbSub α} {n : Nat} (he : e.Valid v d) (hn : e.points.length = n + 1) :
    ∃ hs, S.asHyperplanes e = some (some hs) ∧ n + hs.length = d ∧ (∀ o ∈ hs, o.Valid S v d e.ambient) ∧
      ∀ x : Fin d → K, x ∈ affineSpan K (pointSet v d e.points) ↔ ∀ o ∈ hs, x ∈ affineSpan K (pointSet v d o.simplex.points) :=
  he.asHyperplanes h hn

/-- C124: in terms of `classify_point`: a point is in the subspace exactly if all the hyperplanes classify it as neutral. -/
theorem C124_classify (h : S.Models v) {e : EmbSub α} {n : Nat} (he : e.Valid v d) (hn : e.points.length = n + 1) :
    ∃ hs, S.asHyperplanes e = some (some hs) ∧ ∀ x : Vec α, x.In e.ambient →
      (x.val v d ∈ affineSpan K (pointSet v d e.points) ↔ ∀ o ∈ hs, S.classify o x = some .neutral) := by
  obtain ⟨hs, h1, h2, h3, h4⟩ := he.asHyperplanes h hn
  refine ⟨hs, h1, fun x hx => ?_⟩
  rw [h4]
  apply forall₂_congr
  intro o ho
  have hd0 : d ≠ 0 := by
    rintro rfl
    have : hs.length = 0 := by omega
    rw [List.length_eq_zero_iff.1 this] at ho
    simp at ho
  cases hori : o.orientation with
  | none => exact absurd ((h3 o ho).empty.1 hori) hd0
  | some fr =>
    obtain ⟨side, s1, s2, -⟩ := (h3 o ho).classify h he.dim hori hx
    rw [s1, Option.some.injEq, s2]

/-- C124: for the empty subspace it is `None`. -/
theorem C124_empty (S : OrdOps α) {e : EmbSub α} (he : e.points = []) : S.asHyperplanes e = some none := by
  unfold OrdOps.asHyperplanes OrdOps.rootAndSpan
  rw [he]
  rfl

example : ∃ e : EmbSub ℚ, ∃ hs, ratOrd.asHyperplanes e = some (some hs) ∧ hs.length = 1 := by
  obtain ⟨e, pts, h1, h2, h3, h4⟩ := exSub
  obtain ⟨hs, a1, a2, -⟩ := C124_hyperplanes ratOrd_models (n := 1) h2 (by rw [h3]; rfl)
  exact ⟨e, hs, a1, by omega⟩

/-! ## C125: the origin -/

/-- C125: in a non-empty space `origin` is the zero vector. The full property, that `origin` returns `None` in the empty space, fails: see the
next theorem. -/
theorem C125_origin_partial (h : S.Models v) (hd : sp.dim = d + 1) : ∃ p, S.origin sp = some (some p) ∧ p.In sp ∧ p.val v d = 0 := by
  obtain ⟨p, h1, h2, h3⟩ := h.vecZero hd
  exact ⟨p, by unfold OrdOps.origin; unfold OrdOps.vecZero at h1; rw [h1]; rfl, h2, h3⟩

/-- C125: in the empty space `origin` panics, although it returns an `Option`. -/
theorem C125_origin_wrong (S : OrdOps α) (hd : sp.dim = 0) : S.origin sp = none := by
  unfold OrdOps.origin
  rw [Vec.construct_empty hd]
  rfl

example := C125_origin_partial ratOrd_models (sp := exSpace) (d := 2) rfl
example := C125_origin_wrong ratOrd (sp := ⟨0, 4⟩) rfl

end

end Verif.Geometry
