import Verif.Model.LinearDelay
import Verif.Spec.Line

/-! # Histories of calls on a `LinearDelay` -/

namespace Rasp
open FloatOps

/-- The public methods of `LinearDelay` (the pure getters `get_delay`, `get_max_delay`, `last_out` are left out: they
do not change the state). -/
inductive LinOp (D T : Type) where
  | process (x : T)
  | setDelay (d : D)
  | setMaxDelay (m : ℕ)
  | nextOut
  | tapOut (k : ℕ)
  | tapIn (v : T) (k : ℕ)
  | addTo (v : T) (k : ℕ)
  | clear

variable {D T : Type} [FloatOps D] [FloatOps T] [DelayTime D T]

/-- One call on the model of the Rust type. -/
noncomputable def LinearDelay.step [Target] (b : Build) (s : LinearDelay D T) : LinOp D T → Res (LinearDelay D T × Obs T)
  | .process x => do let (s', y) ← s.process b x; .ok (s', .sample y)
  | .setDelay d => do let s' ← s.setDelay b d; .ok (s', .unit)
  | .setMaxDelay m => do let s' ← s.setMaxDelay b m; .ok (s', .unit)
  | .nextOut => do let (s', y) ← s.nextOut b; .ok (s', .sample y)
  | .tapOut k => do let y ← s.tapOut b k; .ok (s, .sample y)
  | .tapIn v k => do let s' ← s.tapIn b v k; .ok (s', .unit)
  | .addTo v k => do let (s', y) ← s.addTo b v k; .ok (s', .sample y)
  | .clear => .ok (s.clear, .unit)

/-- A sequence of calls. -/
noncomputable def LinearDelay.run [Target] (b : Build) (s : LinearDelay D T) :
    List (LinOp D T) → Res (LinearDelay D T × List (Obs T))
  | [] => .ok (s, [])
  | op :: ops => do
    let (s1, o) ← s.step b op
    let (s2, os) ← LinearDelay.run b s1 ops
    .ok (s2, o :: os)

/-- Arguments allowed in state `s`: tap positions up to `get_max_delay`, maxima that can be allocated; any delay. -/
def LinOp.Legal [Target] (s : LinearDelay D T) : LinOp D T → Prop
  | .tapOut k => k < s.memory.length
  | .tapIn _ k => k < s.memory.length
  | .addTo _ k => k < s.memory.length
  | .setMaxDelay m => Allocatable T m
  | _ => True

/-- States reachable by public calls with allowed arguments. -/
inductive LinearDelay.Reachable [Target] (b : Build) : LinearDelay D T → Prop
  | new {d : D} {m : ℕ} {s : LinearDelay D T} (hm : Allocatable T m) (h : LinearDelay.new b d m = .ok s) :
      LinearDelay.Reachable b s
  | step {s s' : LinearDelay D T} {op : LinOp D T} {o : Obs T} (hs : LinearDelay.Reachable b s) (ho : op.Legal s)
      (h : s.step b op = .ok (s', o)) : LinearDelay.Reachable b s'

/-! ## Samples that reach the line -/

/-- Calls that neither write to taps nor clear nor grow the line. -/
def DelayOp.Quiet : DelayOp T → Prop
  | .tapIn _ _ => False
  | .addTo _ _ => False
  | .clear => False
  | .setMaxDelay _ => False
  | _ => True

/-- The sample a call processes. -/
def DelayOp.sample? : DelayOp T → Option T
  | .process x => some x
  | _ => none

/-- Calls that neither write to taps nor clear nor grow the line. -/
def LinOp.Quiet : LinOp D T → Prop
  | .tapIn _ _ => False
  | .addTo _ _ => False
  | .clear => False
  | .setMaxDelay _ => False
  | _ => True

/-- The sample a call processes. -/
def LinOp.sample? : LinOp D T → Option T
  | .process x => some x
  | _ => none

end Rasp

namespace Rasp
open FloatOps
variable {D T : Type} [FloatOps D] [FloatOps T] [DelayTime D T]

/-- What the taps of `s` show: `h`, newest first, over the whole line. -/
def LinearDelay.Stores [Target] (b : Build) (s : LinearDelay D T) (h : List T) : Prop :=
  (∃ mx, s.getMaxDelay b = .ok mx ∧ h.length = mx + 1) ∧ ∀ (k : ℕ) (hk : k < h.length), s.tapOut b k = .ok h[k]

/-- Arguments in range for a line with `n = max_delay + 1` slots: tap positions below `n`, no growth. -/
def LinOp.InRange (n : ℕ) : LinOp D T → Prop
  | .tapOut k => k < n
  | .tapIn _ k => k < n
  | .addTo _ k => k < n
  | .setMaxDelay m => m < n
  | _ => True

/-- After these calls, was `next_out` called since the last `process`? (`p`: was it before them?) -/
def pendingAfter : Bool → List (LinOp D T) → Bool
  | p, [] => p
  | _, .process _ :: ops => pendingAfter false ops
  | _, .nextOut :: ops => pendingAfter true ops
  | p, _ :: ops => pendingAfter p ops

/-- Linear interpolation at distance `d = n + f`: `(1 - f) x[t-n] + f x[t-n-1]`, where `x[-1], x[-2], …` are the
entries of `h` (and silence beyond). -/
noncomputable def interp (d : ℝ) (h : List ℝ) (x : ℕ → ℝ) (t : ℕ) : ℝ :=
  (1 - (d - ⌊d⌋₊)) * delayedBy ⌊d⌋₊ h x t + (d - ⌊d⌋₊) * delayedBy (⌊d⌋₊ + 1) h x t

/-- States reachable by public calls with allowed arguments while the number of slots always satisfies `P`. -/
inductive LinearDelay.ReachableVia [Target] (b : Build) (P : ℕ → Prop) : LinearDelay D T → Prop
  | new {d : D} {m : ℕ} {s : LinearDelay D T} (hm : Allocatable T m) (h : LinearDelay.new b d m = .ok s)
      (hP : P s.memory.length) : LinearDelay.ReachableVia b P s
  | step {s s' : LinearDelay D T} {op : LinOp D T} {o : Obs T} (hs : LinearDelay.ReachableVia b P s) (ho : op.Legal s)
      (h : s.step b op = .ok (s', o)) (hP : P s'.memory.length) : LinearDelay.ReachableVia b P s'

end Rasp
