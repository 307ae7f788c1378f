import Mathlib.Data.Rat.Defs

/-!
# The floating-point interface the crate is generic over

`rasp` is generic over `T: num::traits::Float (+ traits::FloatConst)`.  `FloatOps T` lists exactly the
operations the crate calls, **with no laws** (except that a value occupies at least one byte), so that a
theorem stated for an arbitrary `FloatOps T` holds of the real `f32`/`f64` whatever their rounding does.
-/

namespace Rasp

/-- A constant expression over `f64` literals, as it appears inside `num::cast(..)` in the crate
(e.g. `num::cast(20f64)`, or `COEFFICIENTS[0] = (1f64 - 0.16f64)/2f64`, src/window/blackman.rs:7).
It is evaluated in `f64` arithmetic before the cast. -/
inductive F64Const where
  | lit (q : ℚ)
  | sub (a b : F64Const)
  | div (a b : F64Const)

/-- The operations of `num::traits::Float`, `num::{zero, one, cast}` and `traits::FloatConst`
(src/traits.rs:6-29) used by the crate. Comparison operators are Boolean: `a > b` is `lt b a`,
`a >= b` is `le b a`. -/
class FloatOps (T : Type) where
  /-- `num::zero()` / `T::zero()` -/
  zero : T
  /-- `num::one()` / `T::one()` -/
  one : T
  /-- `T::two()`, src/traits.rs:16-18, 26-28 -/
  two : T
  /-- `T::pi()`, src/traits.rs:12-14, 22-24 -/
  pi : T
  add : T → T → T
  sub : T → T → T
  mul : T → T → T
  div : T → T → T
  neg : T → T
  abs : T → T
  sqrt : T → T
  exp : T → T
  cos : T → T
  sin : T → T
  log10 : T → T
  powf : T → T → T
  /-- `a < b` -/
  lt : T → T → Bool
  /-- `a <= b` -/
  le : T → T → Bool
  isFinite : T → Bool
  isSignNegative : T → Bool
  /-- `num::cast::<usize, T>(n).unwrap()` (and `n as f32`) -/
  ofUsize : ℕ → T
  /-- `num::cast::<f64, T>(c).unwrap()` for a constant `c` -/
  ofF64 : F64Const → T
  /-- `std::mem::size_of::<T>()` -/
  size : ℕ
  size_pos : 0 < size

scoped infixl:65 " +. " => FloatOps.add
scoped infixl:65 " -. " => FloatOps.sub
scoped infixl:70 " *. " => FloatOps.mul
scoped infixl:70 " /. " => FloatOps.div

end Rasp
