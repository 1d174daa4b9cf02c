import Mathlib.Data.Nat.Bits

/-!
# Binary exponentiation

The same loop occurs four times in the code base; it is modelled once, with the multiplication and the
unit passed explicitly (the Rust code takes them from the surrounding structure or trait).
-/

namespace Verif

/-- The loop `while pows.len() < bits.len() { pows.push(last*last) }`.
`last` is `pows.last().unwrap()`; the vector always starts as `[a]`, so it is never empty.
Models rings/src/structure/structure.rs:61-64, groups/src/group.rs:48-54,
rings/src/number/natural/functions.rs:65-68. -/
def growPows {M : Type} (mul : M → M → M) (count : Nat) (pows : List M) (last : M) : List M :=
  if pows.length < count then growPows mul count (pows ++ [mul last last]) (mul last last) else pows
termination_by count - pows.length
decreasing_by simp; omega

/-- The loop `for i in 0..count { if bits[i] { ans = ans * pows[i] } }`; the two vectors have equal length
(`debug_assert_eq!(count, pows.len())`), so the indexed loop is a fold over the zipped lists.
Models rings/src/structure/structure.rs:67-72, groups/src/group.rs:57-62,
rings/src/number/natural/functions.rs:71-76. -/
def foldPows {M : Type} (mul : M → M → M) (one : M) (bits : List Bool) (pows : List M) : M :=
  (bits.zip pows).foldl (fun ans bp => if bp.1 then mul ans bp.2 else ans) one

/-- `nat_pow`. `Nat.bits` lists the binary digits, least significant first without trailing zeros, as
malachite's `n.bits()` does.
Models `SemiRingStructure::nat_pow` rings/src/structure/structure.rs:53-75,
`Group::nat_pow` groups/src/group.rs:40-65 and `pow` rings/src/number/natural/functions.rs:56-79. -/
def binPow {M : Type} (mul : M → M → M) (one a : M) (n : Nat) : M :=
  if n = 0 then one
  else if n = 1 then a
  else
    let bits := n.bits
    foldPows mul one bits (growPows mul bits.length [a] a)

end Verif
