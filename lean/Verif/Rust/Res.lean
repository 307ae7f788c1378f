import Verif.Float.Ops
import Verif.Rust.Target
import Mathlib.Data.Int.Notation
import Mathlib.Data.List.Basic
import Mathlib.Data.Nat.Find
import Mathlib.Logic.Function.Iterate

/-!
# Rust outcomes and machine integers

A `usize` is a `ℕ`, an `isize` an `ℤ`; the operations check the range of the target (32 or 64 bits): out of range
is a panic in a debug build and wraps in a release build.
-/

namespace Rasp

/-- How an evaluation can fail to return: a Rust panic, or a `while` loop that never ends. -/
inductive Fault where
  | panic
  | diverge
  deriving DecidableEq, Repr

/-- Result of evaluating Rust code that may panic. -/
abbrev Res (α : Type) := Except Fault α

/-- Build profile: `debug = true` has overflow checks and `debug_assert!` enabled, `debug = false` has neither. -/
structure Build where
  debug : Bool

/-- `a + b` on `usize`. -/
def uAdd [Target] (b : Build) (x y : ℕ) : Res ℕ :=
  if x + y < usizeMod then .ok (x + y)
  else if b.debug then .error .panic else .ok ((x + y) % usizeMod)

/-- `a - b` on `usize`. -/
def uSub [Target] (b : Build) (x y : ℕ) : Res ℕ :=
  if y ≤ x then .ok (x - y)
  else if b.debug then .error .panic else .ok ((x + usizeMod - y) % usizeMod)

/-- `a % b` on `usize`: panics for `b = 0` in every profile. -/
def uRem (x y : ℕ) : Res ℕ :=
  if y = 0 then .error .panic else .ok (x % y)

/-- Two's complement wrap of an integer to `isize`. -/
def wrapI [Target] (i : ℤ) : ℤ := (i + isizeMod) % usizeMod - isizeMod

/-- `x as isize` for a `usize`. -/
def asIsize [Target] (x : ℕ) : ℤ := wrapI x

/-- `i as usize` for an `isize`. -/
def asUsize [Target] (i : ℤ) : ℕ := (i % usizeMod).toNat

/-- Range check of an `isize` result. -/
def iCheck [Target] (b : Build) (i : ℤ) : Res ℤ :=
  if -isizeMod ≤ i ∧ i < isizeMod then .ok i
  else if b.debug then .error .panic else .ok (wrapI i)

/-- `a - b` on `isize`. -/
def iSub [Target] (b : Build) (x y : ℤ) : Res ℤ := iCheck b (x - y)
/-- `a + b` on `isize`. -/
def iAdd [Target] (b : Build) (x y : ℤ) : Res ℤ := iCheck b (x + y)

/-- `v[i]` on a `Vec`: bounds-checked. -/
def idx {T : Type} (v : List T) (i : ℕ) : Res T :=
  match v[i]? with
  | some x => .ok x
  | none => .error .panic

/-- `v[i] = x` on a `Vec`: bounds-checked. -/
def idxSet {T : Type} (v : List T) (i : ℕ) (x : T) : Res (List T) :=
  if i < v.length then .ok (v.set i x) else .error .panic

/-- `vec![z; n]`: panics ("capacity overflow") when the size in bytes exceeds `isize::MAX`.
Heap exhaustion is not modelled. -/
def vecNew [Target] {T : Type} [FloatOps T] (z : T) (n : ℕ) : Res (List T) :=
  if n * FloatOps.size T ≤ isizeMax then .ok (List.replicate n z) else .error .panic

/-- `v.resize(n, z)`: truncates or appends copies of `z`; same capacity limit. -/
def vecResize [Target] {T : Type} [FloatOps T] (v : List T) (n : ℕ) (z : T) : Res (List T) :=
  if n ≤ v.length then .ok (v.take n)
  else if n * FloatOps.size T ≤ isizeMax then .ok (v ++ List.replicate (n - v.length) z)
  else .error .panic

end Rasp

namespace Rasp

open Classical in
/-- `while cond(x) { x = body(x) }` for a body that cannot panic: the first iterate at which the condition is
false, or divergence if there is none. No bound on the number of iterations. -/
noncomputable def whileLoop {α : Type} (cond : α → Bool) (body : α → α) (x : α) : Res α :=
  if h : ∃ n : ℕ, cond (body^[n] x) = false then .ok (body^[Nat.find h] x) else .error .diverge

end Rasp
