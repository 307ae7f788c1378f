import Verif.Float.Ops
import Verif.Rust.Target
import Verif.Float.Round
import Mathlib.Analysis.Real.Sqrt
import Mathlib.Analysis.Real.Pi.Bounds

/-!
# IEEE-754 numbers

`FP f` has signed zeros, infinities and NaNs (only the sign bit of a NaN is kept). The basic operations are
correctly rounded to nearest, ties to even. The sign of a NaN *produced by an operation* is not modelled
(it is always `nan false` here; Rust leaves it unspecified); no theorem depends on it.
-/

namespace Rasp

/-- Bound for finite magnitudes of a format. -/
noncomputable def Fmt.lim (f : Fmt) : ℝ := (2 : ℝ) ^ (f.emax + 1)

/-- A floating-point number of format `f`. The Boolean is the sign bit. -/
inductive FP (f : Fmt) where
  | nan (neg : Bool)
  | inf (neg : Bool)
  | fin (neg : Bool) (mag : ℝ) (h : 0 ≤ mag ∧ IsRep f mag ∧ mag < f.lim)

namespace FP
variable {f g : Fmt}

/-- The real value of a finite number (and `0` for the others). -/
noncomputable def toReal : FP f → ℝ
  | nan _ => 0
  | inf _ => 0
  | fin s a _ => if s then -a else a

/-- Finite: neither infinite nor NaN. -/
def Finite : FP f → Prop
  | fin _ _ _ => True
  | _ => False

/-- Is NaN. -/
def IsNaN : FP f → Prop
  | nan _ => True
  | _ => False

/-- Sign bit. -/
def signBit : FP f → Bool
  | nan s => s
  | inf s => s
  | fin s _ _ => s

theorem rnd_mag_ok (x : ℝ) (h : |rnd f x| < f.lim) :
    0 ≤ |rnd f x| ∧ IsRep f |rnd f x| ∧ |rnd f x| < f.lim :=
  ⟨abs_nonneg _, (rnd_isRep f x).abs, h⟩

open Classical in
/-- Correctly rounded result of an operation whose exact value is `x`; `sz` is the sign used when `x = 0`. -/
noncomputable def ofReal (f : Fmt) (sz : Bool) (x : ℝ) : FP f :=
  if h : |rnd f x| < f.lim then
    fin (if x = 0 then sz else decide (x < 0)) |rnd f x| (rnd_mag_ok x h)
  else inf (decide (x < 0))

/-- IEEE negation: flips the sign bit. -/
def neg : FP f → FP f
  | nan s => nan (!s)
  | inf s => inf (!s)
  | fin s a h => fin (!s) a h

/-- IEEE absolute value: clears the sign bit. -/
def abs : FP f → FP f
  | nan _ => nan false
  | inf _ => inf false
  | fin _ a h => fin false a h

/-- IEEE addition. An exact zero sum of operands of different sign is `+0`. -/
noncomputable def add : FP f → FP f → FP f
  | nan _, _ => nan false
  | _, nan _ => nan false
  | inf s, inf t => if s = t then inf s else nan false
  | inf s, fin _ _ _ => inf s
  | fin _ _ _, inf t => inf t
  | fin s a ha, fin t b hb => ofReal f (s && t) (toReal (fin s a ha) + toReal (fin t b hb))

/-- IEEE subtraction. -/
noncomputable def sub (x y : FP f) : FP f := add x (neg y)

open Classical in
/-- IEEE multiplication. -/
noncomputable def mul : FP f → FP f → FP f
  | nan _, _ => nan false
  | _, nan _ => nan false
  | inf s, inf t => inf (s != t)
  | inf s, fin t b _ => if b = 0 then nan false else inf (s != t)
  | fin s a _, inf t => if a = 0 then nan false else inf (s != t)
  | fin s a ha, fin t b hb => ofReal f (s != t) (toReal (fin s a ha) * toReal (fin t b hb))

open Classical in
/-- IEEE division. -/
noncomputable def div : FP f → FP f → FP f
  | nan _, _ => nan false
  | _, nan _ => nan false
  | inf _, inf _ => nan false
  | inf s, fin t _ _ => inf (s != t)
  | fin s _ _, inf t => ofReal f (s != t) 0
  | fin s a ha, fin t b hb =>
    if b = 0 then (if a = 0 then nan false else inf (s != t))
    else ofReal f (s != t) (toReal (fin s a ha) / toReal (fin t b hb))

open Classical in
/-- IEEE square root. -/
noncomputable def sqrt : FP f → FP f
  | nan _ => nan false
  | inf s => if s then nan false else inf false
  | fin s a _ => if a = 0 then ofReal f s 0 else if s then nan false else ofReal f false (Real.sqrt a)

open Classical in
/-- IEEE `<`: false if an operand is NaN. -/
noncomputable def lt : FP f → FP f → Bool
  | nan _, _ => false
  | _, nan _ => false
  | inf s, inf t => s && !t
  | inf s, fin _ _ _ => s
  | fin _ _ _, inf t => !t
  | fin s a ha, fin t b hb => decide (toReal (fin s a ha) < toReal (fin t b hb))

open Classical in
/-- IEEE `<=`: false if an operand is NaN. -/
noncomputable def le : FP f → FP f → Bool
  | nan _, _ => false
  | _, nan _ => false
  | inf s, inf t => s || !t
  | inf s, fin _ _ _ => s
  | fin _ _ _, inf t => !t
  | fin s a ha, fin t b hb => decide (toReal (fin s a ha) ≤ toReal (fin t b hb))

/-- IEEE `==`: false if an operand is NaN; `-0 == +0`. -/
noncomputable def eq (x y : FP f) : Bool := le x y && le y x

def isFinite : FP f → Bool
  | fin _ _ _ => true
  | _ => false

/-- Conversion between formats (`as` between f32 and f64, `num::cast` between float types). -/
noncomputable def conv (g : Fmt) : FP f → FP g
  | nan s => nan s
  | inf s => inf s
  | fin s a ha => ofReal g s (toReal (fin s a ha))

/-- `x as usize` for a float: truncation towards zero, saturating, NaN to 0 (Rust since 1.45; undefined before
for out-of-range values). -/
noncomputable def toUsize [Target] : FP f → ℕ
  | nan _ => 0
  | inf s => if s then 0 else usizeMod - 1
  | fin s a ha => min (⌊toReal (fin s a ha)⌋.toNat) (usizeMod - 1)

end FP

/-- Evaluation of an `f64` constant expression. -/
noncomputable def F64Const.eval64 : F64Const → FP binary64
  | .lit q => FP.ofReal binary64 false (q : ℝ)
  | .sub a b => FP.sub a.eval64 b.eval64
  | .div a b => FP.div a.eval64 b.eval64

/-- The transcendental functions of the platform: arbitrary, nothing is assumed about them here. -/
structure Libm (f : Fmt) where
  exp : FP f → FP f
  cos : FP f → FP f
  sin : FP f → FP f
  log10 : FP f → FP f
  powf : FP f → FP f → FP f

/-- IEEE numbers of format `f` together with a choice of `libm`. `Fl L` with `L : Libm binary32` models `f32`. -/
def Fl {f : Fmt} (_ : Libm f) : Type := FP f

open Classical in
noncomputable instance {f : Fmt} (L : Libm f) : FloatOps (Fl L) where
  zero := FP.ofReal f false 0
  one := FP.ofReal f false 1
  two := FP.ofReal f false 2
  pi := FP.ofReal f false Real.pi
  add := FP.add
  sub := FP.sub
  mul := FP.mul
  div := FP.div
  neg := FP.neg
  abs := FP.abs
  sqrt := FP.sqrt
  exp := L.exp
  cos := L.cos
  sin := L.sin
  log10 := L.log10
  powf := L.powf
  lt := FP.lt
  le := FP.le
  isFinite := FP.isFinite
  isSignNegative := FP.signBit
  ofUsize n := FP.ofReal f false n
  ofF64 c := FP.conv f c.eval64
  size := (f.p + 11) / 8
  size_pos := by have := f.hp; omega

end Rasp
