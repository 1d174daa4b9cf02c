import Verif.Model.Eigen
import Verif.Props.Smith
import Verif.Props.Lattice

/-! Properties of the Jordan bases of a nilpotent matrix. -/

namespace Verif.Rings
open Matrix

/-- C192, without panics and without the claim that the vectors form a basis: in every block that `jordan_algorithm` builds from a nilpotent matrix
`S`, the product of `S` and a vector is the vector before it. -/
theorem C192_blocks_are_chains_partial {α : Type} {S : BezoutOps α} {s : Mat α} {m : Nat} {blocks : List (List (Mat α))}
    (h : S.jordanBlockBases s m = some blocks) {b : List (Mat α)} (hb : b ∈ blocks) {i : Nat} (hi : i + 1 < b.length) :
    S.matMulUnwrap s b[i + 1] = some b[i] := by
  have chain : ∀ (k : Nat) (v : Mat α) (l : List (Mat α)), S.jordanChain s k v = some l →
      l.head? = some v ∧ ∀ i (hi : i + 1 < l.length), S.matMulUnwrap s l[i] = some l[i + 1] := by
    intro k
    induction k with
    | zero =>
      intro v l e
      cases e
      exact ⟨rfl, fun i hi => absurd hi (by simp)⟩
    | succ k ih =>
      intro v l e
      unfold BezoutOps.jordanChain at e
      obtain ⟨w, e1, e⟩ := Option.bind_eq_some_iff.1 e
      obtain ⟨l', e2, e⟩ := Option.bind_eq_some_iff.1 e
      cases e
      obtain ⟨i1, i2⟩ := ih w l' e2
      refine ⟨rfl, fun i hi => ?_⟩
      rcases i with _ | i
      · cases l' with
        | nil => cases i1
        | cons x l' =>
          cases i1
          exact e1
      · exact i2 i (by simpa using hi)
  let P : LinLat α × List (List (Mat α)) → Prop := fun st => ∀ b ∈ st.2, ∀ i (hi : i + 1 < b.length), S.matMulUnwrap s b[i + 1] = some b[i]
  have add : ∀ k st v st', P st → S.jordanAdd s m k st v = some st' → P st' := by
    intro k st v st' hP e
    unfold BezoutOps.jordanAdd at e
    obtain ⟨l, e1, e⟩ := Option.bind_eq_some_iff.1 e
    obtain ⟨c, e2, e⟩ := Option.bind_eq_some_iff.1 e
    obtain ⟨acc, e3, e⟩ := Option.bind_eq_some_iff.1 e
    cases e
    intro b hb i hi
    rcases List.mem_append.1 hb with hb | hb
    · exact hP b hb i hi
    · rw [List.mem_singleton] at hb
      subst hb
      have hlen : i + 1 < l.length := by simpa using hi
      have := (chain k v l e1).2 (l.length - 1 - (i + 1)) (by omega)
      simp only [List.getElem_reverse]
      rw [this]
      congr 2
      omega
  have fold : ∀ k (l : List (Mat α)) st st', P st → l.foldlM (S.jordanAdd s m k) st = some st' → P st' := by
    intro k l
    induction l with
    | nil => intro st st' hP e; cases e; exact hP
    | cons v l ih =>
      intro st st' hP e
      rw [List.foldlM_cons] at e
      obtain ⟨st1, e1, e⟩ := Option.bind_eq_some_iff.1 e
      exact ih st1 st' (add k st v st1 hP e1) e
  have step : ∀ kers k st st', P st → S.jordanStep s m kers st k = some st' → P st' := by
    intro kers k st st' hP e
    unfold BezoutOps.jordanStep at e
    obtain ⟨_, -, e⟩ := Option.bind_eq_some_iff.1 e
    obtain ⟨_, -, e⟩ := Option.bind_eq_some_iff.1 e
    obtain ⟨_, -, e⟩ := Option.bind_eq_some_iff.1 e
    obtain ⟨_, -, e⟩ := Option.bind_eq_some_iff.1 e
    obtain ⟨_, -, e⟩ := Option.bind_eq_some_iff.1 e
    obtain ⟨_, -, e⟩ := Option.bind_eq_some_iff.1 e
    exact fold k _ st st' hP e
  have steps : ∀ kers (ks : List Nat) st st', P st → ks.foldlM (S.jordanStep s m kers) st = some st' → P st' := by
    intro kers ks
    induction ks with
    | nil => intro st st' hP e; cases e; exact hP
    | cons k ks ih =>
      intro st st' hP e
      rw [List.foldlM_cons] at e
      obtain ⟨st1, e1, e⟩ := Option.bind_eq_some_iff.1 e
      exact ih st1 st' (step kers k st st1 hP e1) e
  unfold BezoutOps.jordanBlockBases at h
  obtain ⟨_, -, h⟩ := Option.bind_eq_some_iff.1 h
  obtain ⟨_, -, h⟩ := Option.bind_eq_some_iff.1 h
  obtain ⟨kers, -, h⟩ := Option.bind_eq_some_iff.1 h
  obtain ⟨z, -, h⟩ := Option.bind_eq_some_iff.1 h
  obtain ⟨st, e, h⟩ := Option.bind_eq_some_iff.1 h
  cases h
  exact steps kers _ _ st (fun b hb => absurd hb List.not_mem_nil) e b hb i hi

/-- a nilpotent matrix with Jordan blocks of sizes 3 and 1 -/
def jordanBad : Mat ℚ := ratMat 4 4 [0, 1, 0, 0, 0, 0, 0, 1, 0, 0, 0, 1, 0, 0, 0, 0]

theorem jordanBad_run : (ratOps.fieldEuc.bezout.jordanBlockBases jordanBad 4).map (fun b => b.map List.length) = some [3, 2] := by
  rw [ratOps_models.fieldEuc.bezoutRun]
  decide +kernel

/-- C192 is false: for the nilpotent rational matrix `[[0,1,0,0],[0,0,0,1],[0,0,0,1],[0,0,0,0]]`, of rank 2 with `S^3 = 0` and so with Jordan blocks
of sizes 3 and 1, `jordan_algorithm` builds blocks of sizes 3 and 2: five vectors in a space of dimension four. -/
theorem C192_wrong :
    ∃ (m : Mat ℚ) (A : Matrix (Fin 4) (Fin 4) ℚ) (blocks : List (List (Mat ℚ))), m.Denotes (id : ℚ → ℚ) A ∧ A ^ 3 = 0 ∧
      ratOps.fieldEuc.bezout.jordanBlockBases m 4 = some blocks ∧ blocks.map List.length = [3, 2] ∧ blocks.flatten.length = 5 := by
  obtain ⟨b, e1, e2⟩ := Option.map_eq_some_iff.1 jordanBad_run
  refine ⟨jordanBad, _, b, storedMat_denotes 4 4 _ rfl, ?_, e1, e2, ?_⟩
  · decide +kernel
  · rw [List.length_flatten, e2]
    rfl

example : ∃ b, ratOps.fieldEuc.bezout.jordanBlockBases jordanBad 4 = some b ∧ ∃ c ∈ b, ∃ h : 2 < c.length,
    ratOps.fieldEuc.bezout.matMulUnwrap jordanBad c[2] = some c[1] := by
  obtain ⟨b, e1, e2⟩ := Option.map_eq_some_iff.1 jordanBad_run
  have h0 : 0 < b.length := by
    have := congrArg List.length e2
    simp at this
    omega
  have h3 : b[0].length = 3 := by
    have := congrArg (fun l => l[0]?) e2
    simpa [List.getElem?_eq_getElem h0] using this
  exact ⟨_, e1, b[0], List.getElem_mem h0, by omega, C192_blocks_are_chains_partial e1 (List.getElem_mem h0) (by omega)⟩

end Verif.Rings
