import Mathlib.Data.Nat.Notation

/-!
# The target's pointer width

`usize` and `isize` have 32 or 64 bits, depending on the target; every theorem holds for both.
-/

namespace Rasp

/-- The target the crate is compiled for: pointers of 64 (`wide`) or 32 bits. The standard library, which the
crate uses for `Vec`, does not exist for 16-bit targets. -/
class Target where
  wide : Bool

/-- `usize::BITS` -/
def usizeBits [Target] : ℕ := if Target.wide then 64 else 32
/-- `usize::MAX + 1` -/
def usizeMod [Target] : ℕ := 2 ^ usizeBits
/-- `isize::MAX + 1`, half of it. -/
def isizeMod [Target] : ℕ := 2 ^ (usizeBits - 1)
/-- `isize::MAX` -/
def isizeMax [Target] : ℕ := isizeMod - 1

/-- What is known about the width: for `omega`. -/
theorem target [Target] : usizeMod = 2 * isizeMod ∧ isizeMax + 1 = isizeMod ∧
    (isizeMod = 2147483648 ∨ isizeMod = 9223372036854775808) := by
  unfold isizeMax usizeMod isizeMod usizeBits
  cases Target.wide <;> decide

end Rasp
