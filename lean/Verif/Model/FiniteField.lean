import Verif.Model.Numbers

/-!
# Finite fields

`Modulo<N>`, the field of four elements, and integers modulo a prime, as finite field structures.
-/

namespace Verif.Rings

/-- Models `FiniteFieldStructure` (required methods `all_units` and `characteristic_and_power`),
rings/src/structure/structure.rs:281-283 and 701-703. -/
structure FinFieldOps (α : Type) extends DomainOps α where
  allUnits : List α
  charPow : Nat × Nat

/-- Models `all_elements`, rings/src/structure/structure.rs:705-709. -/
def FinFieldOps.elements {α : Type} (F : FinFieldOps α) : List α := F.toRingOps.allElements F.allUnits

/-- The loop of `xgcd` (`usize`/`isize` without overflow). Models rings/src/number/finite_fields/modulo.rs:16-23. -/
def moduloXgcdLoop (x y : Nat) (pa a pb b : Int) : Nat × Int × Int :=
  if h : y = 0 then (x, pa, pb)
  else moduloXgcdLoop y (x % y) a (pa - (x / y : Nat) * a) b (pb - (x / y : Nat) * b)
termination_by y
decreasing_by exact Nat.mod_lt _ (Nat.pos_of_ne_zero h)

/-- Models `xgcd`, rings/src/number/finite_fields/modulo.rs:11-25. -/
def moduloXgcd (x y : Nat) : Nat × Int × Int := moduloXgcdLoop x y 1 0 0 1

/-- Models `modulo`, rings/src/number/finite_fields/modulo.rs:27-33 (`%` on `isize` rounds towards zero). -/
def moduloOf (a : Int) (n : Nat) : Nat :=
  let a := a.tmod n
  (if a < 0 then a + n else a).toNat

/-- Models `From<usize>`, rings/src/number/finite_fields/modulo.rs:82-86. -/
def moduloFromUsize (n value : Nat) : Nat := value % n

/-- Models `From<isize>` and `From<i32>`, rings/src/number/finite_fields/modulo.rs:87-100. -/
def moduloFromIsize (n : Nat) (value : Int) : Nat := moduloOf value n

/-- Models `From<Integer>` and `From<&Integer>`, rings/src/number/finite_fields/modulo.rs:64-81. `malachite`'s `%` on
integers has the sign of the dividend; `unsigned_abs_ref` is the absolute value. -/
def moduloFromInteger (n : Nat) (value : Int) : Nat := (value.tmod n).natAbs

/-- Models `one`, rings/src/number/finite_fields/modulo.rs:139-145. -/
def moduloOne (n : Nat) : Nat := if n = 1 then 0 else 1

/-- Models `add`, rings/src/number/finite_fields/modulo.rs:147-149. -/
def moduloAdd (n a b : Nat) : Nat := (a + b) % n

/-- Models `mul`, rings/src/number/finite_fields/modulo.rs:151-155. -/
def moduloMul (n a b : Nat) : Nat := a * b % n

/-- Models `neg`, rings/src/number/finite_fields/modulo.rs:159-165 (`N - a.x` does not underflow when `a.x ≤ N`). -/
def moduloNeg (n a : Nat) : Nat := if a = 0 then 0 else n - a

/-- The second branch of `div`, after the division by `g`. Models rings/src/number/finite_fields/modulo.rs:184-190. -/
def moduloDivFinish (n top : Nat) (g : Nat) (a : Int) : Except DivErr Nat :=
  if top % g = 0 then .ok (moduloOf a n * (top / g) % n) else .error .notDivisible

/-- Models `div`, rings/src/number/finite_fields/modulo.rs:171-191, with its debug assertion. -/
def moduloDiv (n top bot : Nat) : Option (Except DivErr Nat) :=
  if bot = 0 then some (.error .divideByZero)
  else
    let t := moduloXgcd bot n
    if (t.1 : Int) = t.2.1 * bot + t.2.2 * n then some (moduloDivFinish n top t.1 t.2.1) else none

/-- Models `all_units`, rings/src/number/finite_fields/modulo.rs:195-201. -/
def moduloAllUnits (n : Nat) : List Nat := List.range' 1 (n - 1)

/-- The literals of `impl_field!`. Models rings/src/number/finite_fields/modulo.rs:220-387. -/
def moduloPrimes : List Nat :=
    [2, 3, 5, 7, 11, 13, 17, 19, 23, 29, 31, 37, 41, 43, 47, 53, 59, 61, 67, 71, 73, 79, 83, 89, 97, 101, 103, 107, 109,
   113, 127, 131, 137, 139, 149, 151, 157, 163, 167, 173, 179, 181, 191, 193, 197, 199, 211, 223, 227, 229, 233, 239,
   241, 251, 257, 263, 269, 271, 277, 281, 283, 293, 307, 311, 313, 317, 331, 337, 347, 349, 353, 359, 367, 373, 379,
   383, 389, 397, 401, 409, 419, 421, 431, 433, 439, 443, 449, 457, 461, 463, 467, 479, 487, 491, 499, 503, 509, 521,
   523, 541, 547, 557, 563, 569, 571, 577, 587, 593, 599, 601, 607, 613, 617, 619, 631, 641, 643, 647, 653, 659, 661,
   673, 677, 683, 691, 701, 709, 719, 727, 733, 739, 743, 751, 757, 761, 769, 773, 787, 797, 809, 811, 821, 823, 827,
   829, 839, 853, 857, 859, 863, 877, 881, 883, 887, 907, 911, 919, 929, 937, 941, 947, 953, 967, 971, 977, 983, 991,
   997]

theorem moduloAdd_lt {n : Nat} (h : 0 < n) (a b : Nat) : moduloAdd n a b < n := Nat.mod_lt _ h
theorem moduloMul_lt {n : Nat} (h : 0 < n) (a b : Nat) : moduloMul n a b < n := Nat.mod_lt _ h
theorem moduloOne_lt {n : Nat} (h : 0 < n) : moduloOne n < n := by unfold moduloOne; split <;> omega
theorem moduloNeg_lt {n : Nat} (h : 0 < n) (a : Nat) : moduloNeg n a < n := by unfold moduloNeg; split <;> omega
theorem moduloDivFinish_lt {n : Nat} (h : 0 < n) (top g : Nat) (a : Int) (x : Nat) (hx : moduloDivFinish n top g a = .ok x) : x < n := by
  unfold moduloDivFinish at hx
  split at hx
  · cases hx; exact Nat.mod_lt _ h
  · cases hx
theorem moduloAllUnits_lt {n : Nat} (x : Nat) (hx : x ∈ moduloAllUnits n) : x < n := by
  simp only [moduloAllUnits, List.mem_range'_1] at hx; omega

/-- `Result::map` with the range proof. -/
def moduloWrap (n : Nat) (r : Except DivErr Nat) (h : ∀ x, r = .ok x → x < n) : Except DivErr (Fin n) :=
  match r, h with
  | .ok x, h => .ok ⟨x, h x rfl⟩
  | .error e, _ => .error e

theorem moduloDiv_lt {n : Nat} (hn : 0 < n) (top bot : Nat) (r : Except DivErr Nat) (hr : moduloDiv n top bot = some r) (x : Nat)
    (hx : r = .ok x) : x < n := by
  subst hx
  unfold moduloDiv at hr
  split at hr
  · cases hr
  · dsimp only at hr
    split at hr
    · exact moduloDivFinish_lt hn _ _ _ _ (Option.some.inj hr)
    · cases hr

/-- `Modulo<N>` as a structure, on the representatives `x < N` (the ones that `From` and the operations produce). Models
rings/src/number/finite_fields/modulo.rs:134-207. -/
def moduloOps (n : Nat) (hn : 0 < n) : FinFieldOps (Fin n) where
  equal a b := a.val == b.val
  zero := ⟨0, hn⟩
  one := ⟨moduloOne n, moduloOne_lt hn⟩
  add a b := ⟨moduloAdd n a b, moduloAdd_lt hn a b⟩
  mul a b := ⟨moduloMul n a b, moduloMul_lt hn a b⟩
  neg a := ⟨moduloNeg n a, moduloNeg_lt hn a⟩
  div a b := (moduloDiv n a b).pmap (fun r h => moduloWrap n r h) (fun r hr x hx => moduloDiv_lt hn a b r hr x hx)
  allUnits := (moduloAllUnits n).attach.map fun x => ⟨x.1, moduloAllUnits_lt x.1 x.2⟩
  charPow := (n, 1)

/-- Models `QuaternaryField`, rings/src/number/finite_fields/quaternary_field.rs:12-17. -/
inductive Quat
  | zero
  | one
  | alpha
  | beta
  deriving DecidableEq, Repr

/-- Models `add`, rings/src/number/finite_fields/quaternary_field.rs:47-61. -/
def Quat.add : Quat → Quat → Quat
  | a, .zero => a
  | .zero, b => b
  | .one, .one => .zero
  | .one, .alpha => .beta
  | .one, .beta => .alpha
  | .alpha, .one => .beta
  | .alpha, .alpha => .zero
  | .alpha, .beta => .one
  | .beta, .one => .alpha
  | .beta, .alpha => .one
  | .beta, .beta => .zero

/-- Models `mul`, rings/src/number/finite_fields/quaternary_field.rs:63-74. -/
def Quat.mul : Quat → Quat → Quat
  | _, .zero => .zero
  | .zero, _ => .zero
  | a, .one => a
  | .one, b => b
  | .alpha, .alpha => .beta
  | .alpha, .beta => .one
  | .beta, .alpha => .one
  | .beta, .beta => .alpha

/-- Models `div`, rings/src/number/finite_fields/quaternary_field.rs:84-96. -/
def Quat.div : Quat → Quat → Except DivErr Quat
  | _, .zero => .error .divideByZero
  | a, .one => .ok a
  | .zero, _ => .ok .zero
  | .one, .alpha => .ok .beta
  | .one, .beta => .ok .alpha
  | .alpha, .alpha => .ok .one
  | .alpha, .beta => .ok .beta
  | .beta, .alpha => .ok .alpha
  | .beta, .beta => .ok .one

/-- The field of four elements. Models rings/src/number/finite_fields/quaternary_field.rs:38-115. -/
def quatOps : FinFieldOps Quat where
  equal a b := a == b
  zero := .zero
  one := .one
  add := Quat.add
  mul := Quat.mul
  neg a := a
  div a b := some (Quat.div a b)
  allUnits := [.one, .alpha, .beta]
  charPow := (2, 2)

/-- The loop of `all_units`. Models rings/src/number/integer/modulo.rs:9-12. -/
def intModUnitsLoop (m : Nat) (u : Nat) : List Int :=
  if u < m then (u : Int) :: intModUnitsLoop m (u + 1) else []
termination_by m - u

/-- The integers modulo a prime. Models rings/src/number/integer/modulo.rs:5-22. -/
def intModOps (m : Int) : FinFieldOps Int where
  toDomainOps := intOps.quotientField m
  allUnits := intModUnitsLoop m.natAbs 1
  charPow := (m.natAbs, 1)

end Verif.Rings
