import Verif.Spec.Line
import Verif.Spec.Linear

/-!
# Debug builds and release builds

A debug build checks for overflow and evaluates `debug_assert!`; a release build does neither. `f b` is the outcome of some
code in build `b`.
-/

namespace Rasp

/-- The debug build does what the release build does, or panics. -/
def DebugFaithful {α : Type} (f : Build → Res α) : Prop := f ⟨true⟩ = f ⟨false⟩ ∨ f ⟨true⟩ = .error .panic

/-- Both builds do the same. -/
def BuildFree {α : Type} (f : Build → Res α) : Prop := f ⟨true⟩ = f ⟨false⟩

/-- `process` of this type does the same in both builds, in every state. -/
def BuildBlind (σ : Type) {T : Type} [Processor σ T] : Prop :=
  ∀ (s : σ) (x : T), BuildFree fun b => Processor.process b s x

variable {D T : Type} [FloatOps T]

/-- Arguments that fit in a `usize`, and `usize::MAX` is not requested as a maximum delay. -/
def DelayOp.NoMax [Target] : DelayOp T → Prop
  | .tapOut k => k < usizeMod
  | .tapIn _ k => k < usizeMod
  | .addTo _ k => k < usizeMod
  | .setMaxDelay m => m + 1 < usizeMod
  | _ => True

/-- The same for `LinearDelay`. -/
def LinOp.NoMax [Target] : LinOp D T → Prop
  | .tapOut k => k < usizeMod
  | .tapIn _ k => k < usizeMod
  | .addTo _ k => k < usizeMod
  | .setMaxDelay m => m + 1 < usizeMod
  | _ => True

end Rasp
