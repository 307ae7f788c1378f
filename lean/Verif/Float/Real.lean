import Verif.Float.Ops
import Mathlib.Analysis.SpecialFunctions.Log.Base
import Mathlib.Analysis.SpecialFunctions.Pow.Real
import Mathlib.Analysis.Real.Sqrt
import Mathlib.Analysis.SpecialFunctions.Trigonometric.Basic

/-!
# Exact arithmetic

The crate's code over the real numbers, with the real elementary functions. This is the reference the
floating-point code approximates. `ℝ` has no NaN, infinities or negative zero: all values are finite.
Division by zero is totalised by Mathlib (`x / 0 = 0`); theorems exclude it explicitly.
-/

namespace Rasp

/-- Value of a constant expression. -/
noncomputable def F64Const.evalR : F64Const → ℝ
  | .lit q => (q : ℝ)
  | .sub a b => a.evalR - b.evalR
  | .div a b => a.evalR / b.evalR

open Classical in
noncomputable instance : FloatOps ℝ where
  zero := 0
  one := 1
  two := 2
  pi := Real.pi
  add := (· + ·)
  sub := (· - ·)
  mul := (· * ·)
  div := (· / ·)
  neg := (- ·)
  abs := fun x => |x|
  sqrt := Real.sqrt
  exp := Real.exp
  cos := Real.cos
  sin := Real.sin
  log10 := Real.logb 10
  powf := fun x y => x ^ y
  lt := fun x y => decide (x < y)
  le := fun x y => decide (x ≤ y)
  isFinite := fun _ => true
  isSignNegative := fun x => decide (x < 0)
  ofUsize := fun n => n
  ofF64 := F64Const.evalR
  size := 8
  size_pos := by norm_num

section simp
open FloatOps
variable (x y : ℝ)
@[simp] theorem real_zero : (FloatOps.zero : ℝ) = 0 := rfl
@[simp] theorem real_one : (FloatOps.one : ℝ) = 1 := rfl
@[simp] theorem real_two : (FloatOps.two : ℝ) = 2 := rfl
@[simp] theorem real_pi : (FloatOps.pi : ℝ) = Real.pi := rfl
@[simp] theorem real_add : x +. y = x + y := rfl
@[simp] theorem real_sub : x -. y = x - y := rfl
@[simp] theorem real_mul : x *. y = x * y := rfl
@[simp] theorem real_div : x /. y = x / y := rfl
@[simp] theorem real_neg : FloatOps.neg x = -x := rfl
@[simp] theorem real_abs : FloatOps.abs x = |x| := rfl
@[simp] theorem real_sqrt : FloatOps.sqrt x = Real.sqrt x := rfl
@[simp] theorem real_exp : FloatOps.exp x = Real.exp x := rfl
@[simp] theorem real_cos : FloatOps.cos x = Real.cos x := rfl
@[simp] theorem real_sin : FloatOps.sin x = Real.sin x := rfl
@[simp] theorem real_log10 : FloatOps.log10 x = Real.logb 10 x := rfl
@[simp] theorem real_powf : FloatOps.powf x y = x ^ y := rfl
@[simp] theorem real_lt : FloatOps.lt x y = true ↔ x < y := by simp [FloatOps.lt]
@[simp] theorem real_le : FloatOps.le x y = true ↔ x ≤ y := by simp [FloatOps.le]
@[simp] theorem real_isFinite : FloatOps.isFinite x = true := rfl
@[simp] theorem real_isSignNegative : FloatOps.isSignNegative x = true ↔ x < 0 := by
  simp [FloatOps.isSignNegative]
@[simp] theorem real_ofUsize (n : ℕ) : (FloatOps.ofUsize n : ℝ) = n := rfl
@[simp] theorem real_ofF64 (c : F64Const) : (FloatOps.ofF64 c : ℝ) = c.evalR := rfl
end simp

end Rasp
