import Verif.Float.IEEE
import Mathlib.Data.EReal.Basic

/-!
# IEEE 754, stated without the rounding function of the model
-/

namespace Rasp

/-- `v` is a number of format `f` (of any size) nearest to `x`; if another one is as near, they are neighbouring multiples of
a power of two and `v` is the even multiple. -/
def NearestEven (f : Fmt) (x v : ℝ) : Prop :=
  IsRep f v ∧ ∀ z, IsRep f z → |v - x| ≤ |z - x| ∧
    (|v - x| = |z - x| → z ≠ v → ∃ m n e : ℤ, v = m * 2 ^ e ∧ z = n * 2 ^ e ∧ |m - n| = 1 ∧ Even m)

/-- Values from here on overflow: half a unit above the largest finite number. -/
noncomputable def Fmt.threshold (f : Fmt) : ℝ := 2 ^ (f.emax + 1) - 2 ^ (f.emax - f.p)

/-- `v` is the correctly rounded `x`, where an exact zero gets the sign `sz`. -/
def CorrectlyRounded {f : Fmt} (v : FP f) (x : ℝ) (sz : Bool) : Prop :=
  (|x| < f.threshold → v.Finite ∧ NearestEven f x v.toReal ∧ (v.signBit = true ↔ x < 0 ∨ x = 0 ∧ sz = true)) ∧
  (f.threshold ≤ |x| → v = .inf (decide (x < 0)))

/-- The value of a number on the extended real line (0 for NaN). -/
noncomputable def FP.toEReal {f : Fmt} : FP f → EReal
  | .inf s => if s then ⊥ else ⊤
  | x => (x.toReal : EReal)


/-- `usize::MAX` -/
def satMax [Target] : ℕ := if Target.wide then 18446744073709551615 else 4294967295

end Rasp
