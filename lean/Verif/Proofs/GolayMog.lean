import Verif.Props.Golay
import Verif.Proofs.GolayLabelRun

/-!
# The labelling as a map to the miracle octad generator
-/

namespace Verif.Golay
open Finset Verif.Rings

/-! ## Words in the coordinates column and label -/

/-- the set of the points `c + 6 * r` with `M c r` -/
def maskOf (M : Nat → Nat → Bool) : Vector24 :=
  match Vector24.new fun i => some (M (i % 6) (i / 6)) with
  | some v => v
  | none => Vector24.zero

theorem mem_maskOf {M : Nat → Nat → Bool} {i : Pt} : i ∈ (maskOf M).set ↔ M ((i : Nat) % 6) ((i : Nat) / 6) = true := by
  obtain ⟨v, v1, -, v3⟩ := new_spec (f := fun i => some (M (i % 6) (i / 6))) (g := fun i => M (i % 6) (i / 6)) (fun _ _ => rfl)
  unfold maskOf
  rw [v1]
  exact v3 i

/-- the sum of the vectors with coefficient one -/
def sumOf (gens : List Vector24) (k : Nat) : Vector24 :=
  gens.zipIdx.foldl (fun v e => if k.testBit e.2 then v.add e.1 else v) Vector24.zero

/-- column `a` without row `e`, and row `f c` of every other column `c` -/
def triMask (a e : Nat) (f : Nat → Nat) : Vector24 := maskOf fun c r => if c = a then decide (r ≠ e) else decide (r = f c)

/-- columns `0` and `j` -/
def pairMask (j : Nat) : Vector24 := maskOf fun c _ => decide (c = 0 ∨ c = j)

/-- the row of the label in a column of the hexacodeword -/
def hexaRow (alpha : Quat) (c : Nat) : Nat := if h : c < 6 then rowOfLabel (hexa alpha ⟨c, h⟩) else 0

/-- the word of the second phase -/
def sMask (l : Quat) : Vector24 := triMask 0 0 fun c => if c = 1 then 0 else rowOfLabel l

/-- the word of the third phase -/
def pMask (l : Quat) : Vector24 := triMask 5 0 fun c => if c = 4 then 0 else rowOfLabel l

/-- the octad through the non-zero rows of column 0, row 2 of column 1 and row 0 of column 2 -/
def kMask (a b c : Quat) : Vector24 :=
  triMask 0 0 fun i => if i = 1 then 2 else if i = 2 then 0 else if i = 3 then rowOfLabel a else if i = 4 then rowOfLabel b else rowOfLabel c

/-- eleven words that the labels give directly -/
def gens (alpha : Quat) : List Vector24 :=
  [pairMask 1, pairMask 2, pairMask 3, pairMask 4, pairMask 5, triMask 0 0 (hexaRow alpha), sMask .zero, sMask .one, sMask .alpha, pMask .one, pMask .alpha]

/-- the coefficients of a word that would be too light (0 for the words of the code) -/
def lightTable : List Nat := 
  [64, 64, 64, 32, 64, 64, 64, 32, 32, 32, 32, 32, 64, 64, 64, 32, 32, 32, 32, 32, 32, 32, 32, 32, 32, 32, 32, 32, 32, 32, 32, 32,
  64, 64, 64, 32, 64, 128, 256, 32, 32, 32, 32, 32, 64, 0, 185, 32, 64, 64, 64, 32, 64, 128, 1068, 32, 32, 32, 32, 32, 64, 309, 185,
  32, 64, 64, 32, 64, 64, 64, 32, 64, 64, 64, 32, 64, 32, 32, 32, 32, 64, 64, 64, 64, 64, 121, 128, 121, 64, 121, 233, 121, 64, 128,
  32, 241, 64, 64, 64, 64, 64, 121, 256, 121, 64, 121, 173, 121, 64, 0, 32, 181, 64, 64, 64, 64, 64, 121, 1086, 121, 64, 121, 173,
  121, 64, 295, 32, 181, 64, 32, 64, 64, 64, 64, 64, 64, 64, 64, 64, 64, 64, 64, 64, 64, 64, 32, 64, 64, 64, 128, 117, 117, 64, 128,
  117, 117, 64, 128, 117, 117, 64, 32, 64, 64, 64, 128, 117, 117, 64, 256, 117, 117, 64, 0, 117, 117, 32, 32, 32, 32, 64, 32, 1056,
  313, 64, 32, 171, 171, 64, 32, 171, 171, 64, 64, 64, 64, 32, 64, 64, 64, 64, 64, 64, 64, 64, 64, 64, 64, 64, 64, 64, 64, 32, 128,
  128, 128, 64, 109, 109, 109, 64, 109, 109, 109, 32, 64, 64, 64, 32, 32, 32, 32, 32, 256, 179, 179, 32, 0, 179, 179, 64, 64, 64,
  64, 32, 128, 1074, 307, 64, 109, 109, 109, 64, 109, 109, 109]

/-- the coefficients of the rows of the miracle octad generator -/
def rowTable : List (List Nat) := 
  [[1, 2, 4, 8, 16, 128, 256, 478, 32, 2048, 681, 3337], [1, 2, 4, 8, 16, 128, 256, 478, 248, 2048, 625, 3337], [1, 2, 4, 8, 16,
  128, 256, 478, 372, 2048, 1021, 3337], [1, 2, 4, 8, 16, 128, 256, 478, 434, 2048, 827, 3337]]

def light (alpha a b c : Quat) : Nat :=
  (lightTable[((rowOfLabel alpha * 4 + rowOfLabel a) * 4 + rowOfLabel b) * 4 + rowOfLabel c]?).getD 0

def rowCoeff (alpha : Quat) (i : Nat) : Nat := ((rowTable[rowOfLabel alpha]?).bind fun l => l[i]?).getD 0

/-- a row of the miracle octad generator as a set -/
def mogMask (i : Nat) : Vector24 := maskOf fun c r => decide ((mogRows[i]?.bind fun s => s.toList[c + 6 * r]?) = some '1')

theorem light_check : ∀ alpha a b c : Quat, (a = .alpha ∧ b = .beta ∧ c = .one) ∨
    (0 < ((sumOf (gens alpha) (light alpha a b c)).add (kMask a b c)).weight ∧ ((sumOf (gens alpha) (light alpha a b c)).add (kMask a b c)).weight < 8) := by
  decide +kernel

theorem row_check : ∀ (alpha : Quat) (i : Fin 12), sumOf (gens alpha ++ [kMask .alpha .beta .one]) (rowCoeff alpha i) = mogMask i := by
  decide +kernel

theorem indicator_mogMask (i : Fin 12) : indicator (mogMask i).set = digits mogRows i := by
  funext j
  simp only [indicator, mogMask, mem_maskOf, digits, decide_eq_true_eq]
  rw [Nat.mod_add_div]

end Verif.Golay
