import Verif.Proofs.HullCheck

/-! # Extending a hull by a point of its affine span -/

namespace Verif.Geometry

open Classical Verif.Rings

noncomputable local instance (priority := 5000) decPt4 (K : Type) (d : Nat) : DecidableEq (Fin d → K) := fun a b => Classical.propDecidable (a = b)

section
variable {α K : Type} [Field K] [LinearOrder K] [IsStrictOrderedRing K] {S : OrdOps α} {v : α → K} {D n : Nat} {sp : Space}
  {c : Hull α} {P : Set (Fin D → K)} {f : (Fin n → K) →ᵃ[K] (Fin D → K)} {l : Finset (Fin n → K) → (Fin n → K) →ᵃ[K] K}

omit [LinearOrder K] [IsStrictOrderedRing K] in
theorem notMem_span_erase {T : Finset (Fin n → K)} (hT : AffineIndependent K (fun x : T => (x : Fin n → K))) {a : Fin n → K} (ha : a ∈ T) :
    a ∉ affineSpan K ((T.erase a : Finset (Fin n → K)) : Set (Fin n → K)) := by
  have := hT.notMem_affineSpan_diff ⟨a, ha⟩ Set.univ
  refine fun hh => this ?_
  convert hh using 2
  ext x
  simp only [Set.mem_image, Set.mem_diff, Set.mem_univ, Set.mem_singleton_iff, true_and, Subtype.exists, Finset.coe_erase, Finset.mem_coe]
  constructor
  · rintro ⟨y, hy, hne, rfl⟩
    exact ⟨hy, fun e => hne (by subst e; rfl)⟩
  · rintro ⟨hx, hne⟩
    exact ⟨x, hx, fun e => hne (congrArg Subtype.val e), rfl⟩

theorem partitionFacets_eq (h : S.Models v) {q : Vec α} (hq : q.In sp) {fs : List (OSimplex α)} (hv : ∀ o ∈ fs, o.Valid S v n sp)
    (hf : ∀ o ∈ fs, o.Fits S v n sp (l (o.simplex.verts v n))) :
    S.partitionFacets q fs = some (fs.filter (fun o => l (o.simplex.verts v n) (q.val v n) < 0),
      fs.filter (fun o => 0 ≤ l (o.simplex.verts v n) (q.val v n))) := by
  induction fs with
  | nil => rfl
  | cons o fs ih =>
    obtain ⟨side, e1, e2, -⟩ := (hf o (by simp)).classify h (hv o (by simp)) hq
    have ih' := ih (fun o ho => hv o (List.mem_cons_of_mem _ ho)) (fun o ho => hf o (List.mem_cons_of_mem _ ho))
    simp only [OrdOps.partitionFacets, e1, ih', Option.bind_eq_bind, Option.bind_some, List.filter_cons]
    by_cases hs : side = .negative
    · have := e2.1 hs
      simp [hs, this, not_le.2 this]
    · have : 0 ≤ l (o.simplex.verts v n) (q.val v n) := not_lt.1 fun hh => hs (e2.2 hh)
      simp [hs, this, not_lt.2 this]

/-- ridges of a list of facets, with the other vertices -/
theorem OrdOps.Models.horizon (h : S.Models v) (hd : sp.dim = n + 1) {V : List (OSimplex α)} (hv : ∀ o ∈ V, o.Valid S v n sp)
    (hn : (V.map fun o => o.simplex.verts v n).Nodup) :
    ∃ r, S.horizon V = some r ∧ (∀ e ∈ r, e.1.Valid v n sp ∧ ∃ o ∈ V, e.2 ∈ o.simplex.points ∧
        e.1.verts v n = (o.simplex.verts v n).erase (e.2.val v n)) ∧
      (r.map fun e => e.1.verts v n).Nodup ∧
      ∀ R, R ∈ (r.map fun e => e.1.verts v n) ↔ Odd (((V.map fun o => o.simplex.verts v n).toFinset.filter (IsFace R)).card) := by
  have hes : ∀ o ∈ V, ∃ es, S.ridgeEntries o.simplex = some es ∧
      (∀ e ∈ es, e.1.Valid v n sp ∧ e.2 ∈ o.simplex.points ∧ e.1.verts v n = (o.simplex.verts v n).erase (e.2.val v n)) ∧
      ∀ R, (es.map fun e => e.1.verts v n).count R = if IsFace R (o.simplex.verts v n) then 1 else 0 := fun o ho => h.ridgeEntries hd (hv o ho).simplex
  let g : OSimplex α → List (Simplex α × Vec α) := fun o => (S.ridgeEntries o.simplex).getD []
  have hg : ∀ o ∈ V, S.ridgeEntries o.simplex = some (g o) := by
    intro o ho
    obtain ⟨es, e1, -⟩ := hes o ho
    simp only [g, e1, Option.getD_some]
  have hm : (V.mapM fun o => S.ridgeEntries o.simplex) = some (V.map g) := mapM_eq_map V hg
  have hall : ∀ e ∈ (V.map g).flatten, e.1.Valid v n sp ∧ ∃ o ∈ V, e.2 ∈ o.simplex.points ∧ e.1.verts v n = (o.simplex.verts v n).erase (e.2.val v n) := by
    intro e he
    obtain ⟨L, hL, he⟩ := List.mem_flatten.1 he
    obtain ⟨o, ho, rfl⟩ := List.mem_map.1 hL
    obtain ⟨es, e1, e2, e3⟩ := hes o ho
    rw [hg o ho] at e1
    cases e1
    exact ⟨(e2 e he).1, o, ho, (e2 e he).2⟩
  obtain ⟨r, r1, r2, r3, r4⟩ := hashToggle_set (eq := S.simplexEq) (P := fun t => t.Valid v n sp) (key := fun t => t.verts v n)
    (fun x y hx hy => h.simplexEq_verts hd hx hy) (l := (V.map g).flatten) (fun e he => (hall e he).1)
  refine ⟨r, ?_, fun e he => hall e (r2 e he), r3, fun R => ?_⟩
  · unfold OrdOps.horizon
    simp only [hm, Option.bind_eq_bind, Option.bind_some, r1]
  · rw [r4]
    have : ((V.map g).flatten.map fun e => e.1.verts v n) = V.flatMap fun o => (g o).map fun e => e.1.verts v n := by
      rw [List.map_flatten, List.flatMap_def, List.map_map]; rfl
    rw [this, count_ridges (κ := fun o : OSimplex α => o.simplex.verts v n) hn]
    intro o ho
    obtain ⟨es, e1, e2, e3⟩ := hes o ho
    rw [hg o ho] at e1
    cases e1
    exact e3 R

theorem OrdOps.Models.horizonAlt (h : S.Models v) (hd : sp.dim = n + 1) {V : List (OSimplex α)} (hv : ∀ o ∈ V, o.Valid S v n sp)
    (hn : (V.map fun o => o.simplex.verts v n).Nodup) :
    ∃ r, S.horizonAlt V = some r ∧ (∀ e ∈ r, e.1.Valid v n sp) ∧ (r.map fun e => e.1.verts v n).Nodup ∧
      ∀ R, R ∈ (r.map fun e => e.1.verts v n) ↔ Odd (((V.map fun o => o.simplex.verts v n).toFinset.filter (IsFace R)).card) := by
  have hes : ∀ o ∈ V, ∃ es, S.facets o.simplex = some es ∧ (∀ t ∈ es, t.Valid v n sp) ∧
      ∀ R, (es.map fun t => t.verts v n).count R = if IsFace R (o.simplex.verts v n) then 1 else 0 := fun o ho => h.facets_count hd (hv o ho).simplex
  let g : OSimplex α → List (Simplex α) := fun o => (S.facets o.simplex).getD []
  have hg : ∀ o ∈ V, S.facets o.simplex = some (g o) := by
    intro o ho
    obtain ⟨es, e1, -⟩ := hes o ho
    simp only [g, e1, Option.getD_some]
  have hm : (V.mapM fun o => S.facets o.simplex) = some (V.map g) := mapM_eq_map V hg
  have hall : ∀ t ∈ (V.map g).flatten, t.Valid v n sp := by
    intro e he
    obtain ⟨L, hL, he⟩ := List.mem_flatten.1 he
    obtain ⟨o, ho, rfl⟩ := List.mem_map.1 hL
    obtain ⟨es, e1, e2, e3⟩ := hes o ho
    rw [hg o ho] at e1
    cases e1
    exact e2 e he
  obtain ⟨r, r1, r2, r3, r4⟩ := hashToggle_set (eq := S.simplexEq) (P := fun t => t.Valid v n sp) (key := fun t => t.verts v n)
    (fun x y hx hy => h.simplexEq_verts hd hx hy) (l := (V.map g).flatten.map fun r => (r, ())) (fun e he => by
      obtain ⟨t, ht, rfl⟩ := List.mem_map.1 he
      exact hall t ht)
  refine ⟨r, ?_, fun e he => ?_, r3, fun R => ?_⟩
  · unfold OrdOps.horizonAlt
    simp only [hm, Option.bind_eq_bind, Option.bind_some, r1]
  · obtain ⟨t, ht, rfl⟩ := List.mem_map.1 (r2 e he)
    exact hall t ht
  · rw [r4, List.map_map]
    have : ((V.map g).flatten.map ((fun e : Simplex α × Unit => e.1.verts v n) ∘ fun r => (r, ()))) = V.flatMap fun o => (g o).map fun t => t.verts v n := by
      rw [List.map_flatten, List.flatMap_def, List.map_map]; rfl
    rw [this, count_ridges (κ := fun o : OSimplex α => o.simplex.verts v n) hn]
    intro o ho
    obtain ⟨es, e1, e2, e3⟩ := hes o ho
    rw [hg o ho] at e1
    cases e1
    exact e3 R

end

end Verif.Geometry
