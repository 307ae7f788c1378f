import Verif.Spec.Line
import Verif.Spec.Rounding

/-!
# The same calls on two sample types
-/

namespace Rasp
open FloatOps

/-- Both calls return, with related results, or both panic. -/
def ResRel {α β : Type} (R : α → β → Prop) : Res α → Res β → Prop
  | .ok x, .ok y => R x y
  | .error e, .error e' => e = e'
  | _, _ => False

variable {T T' : Type}

/-- The same call, with related samples. -/
def DelayOp.Rel (R : T → T' → Prop) : DelayOp T → DelayOp T' → Prop
  | .process x, .process y => R x y
  | .setDelay d, .setDelay e => d = e
  | .setMaxDelay m, .setMaxDelay k => m = k
  | .getDelay, .getDelay => True
  | .getMaxDelay, .getMaxDelay => True
  | .nextOut, .nextOut => True
  | .tapOut k, .tapOut l => k = l
  | .tapIn v k, .tapIn w l => R v w ∧ k = l
  | .addTo v k, .addTo w l => R v w ∧ k = l
  | .clear, .clear => True
  | .lastOut, .lastOut => True
  | _, _ => False

/-- The same answer, with related samples. -/
def Obs.Rel (R : T → T' → Prop) : Obs T → Obs T' → Prop
  | .unit, .unit => True
  | .sample x, .sample y => R x y
  | .nat n, .nat m => n = m
  | _, _ => False

/-- The line need not compute: no `add_to`. -/
def DelayOp.NoSum : DelayOp T → Prop
  | .addTo _ _ => False
  | _ => True

/-- Growth that can be allocated. -/
def DelayOp.CanGrow [Target] [FloatOps T] : DelayOp T → Prop
  | .setMaxDelay m => Allocatable T m
  | _ => True

/-- The call with all samples converted. -/
def DelayOp.map (φ : T → T') : DelayOp T → DelayOp T'
  | .process x => .process (φ x)
  | .setDelay d => .setDelay d
  | .setMaxDelay m => .setMaxDelay m
  | .getDelay => .getDelay
  | .getMaxDelay => .getMaxDelay
  | .nextOut => .nextOut
  | .tapOut k => .tapOut k
  | .tapIn v k => .tapIn (φ v) k
  | .addTo v k => .addTo (φ v) k
  | .clear => .clear
  | .lastOut => .lastOut

/-- The answer with the sample converted. -/
def Obs.map (φ : T → T') : Obs T → Obs T'
  | .unit => .unit
  | .sample x => .sample (φ x)
  | .nat n => .nat n

/-- `s` and `t` work in two floating-point formats. Fed the same finite samples of magnitude at most `X`, all outputs are finite and differ by at most
`E`, however long the stream is. -/
def FormatsAgree {f f' : Fmt} {L : Libm f} {L' : Libm f'} {σ τ : Type} [Processor σ (Fl L)] [Processor τ (Fl L')] (s : σ) (t : τ) (X E : ℝ) : Prop :=
  Total (T := Fl L) s ∧ Total (T := Fl L') t ∧ ∀ (b b' : Build) (x y : ℕ → Fl L) (x' y' : ℕ → Fl L'), (∀ n, (x n).Within X) → (∀ n, (x' n).Finite) →
    (∀ n, (x' n).toReal = (x n).toReal) → Responds b s x y → Responds b' t x' y' →
    ∀ n, (y n).Finite ∧ (y' n).Finite ∧ |(y n).toReal - (y' n).toReal| ≤ E

end Rasp
