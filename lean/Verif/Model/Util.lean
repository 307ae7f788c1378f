import Verif.Model.Traits

/-!
# Model of src/util/mod.rs
-/

namespace Rasp
open FloatOps
variable {T : Type} [FloatOps T]

/-- src/util/mod.rs:10-19. The `debug_assert!` panics only in a debug build. -/
def toDb (b : Build) (sample : T) : Res T :=
  if b.debug && isSignNegative sample then .error .panic
  else if lt (ofF64 (.lit (1 / 1000000))) sample && isFinite sample then
    .ok (ofF64 (.lit 20) *. log10 sample)
  else .ok (ofF64 (.lit (-120)))

/-- src/util/mod.rs:25-34 -/
def toSample (db_value : T) : T :=
  if lt (ofF64 (.lit (-120))) db_value && isFinite db_value then
    powf (ofF64 (.lit 10)) (db_value /. ofF64 (.lit 20))
  else zero

/-- src/util/mod.rs:40-43. The `debug_assert!` panics only in a debug build. -/
def applyGain (b : Build) (sample ratio : T) : Res T :=
  if b.debug && !(isFinite ratio && !isSignNegative ratio) then .error .panic
  else .ok (sample *. ratio)

end Rasp
