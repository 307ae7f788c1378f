import Verif.Model.Unwind
import Verif.Spec.SeamLine
import Verif.Spec.SeamLinear

/-! # Calls after a caught panic -/

namespace Rasp
open FloatOps

/-- A program that catches every panic and goes on: the object at the end and the outcome of every call. -/
def session {σ op o : Type} (call : op → Body σ o) (s : σ) : List op → σ × List (Res o)
  | [] => (s, [])
  | c :: cs =>
    let r := call c s
    let r' := session call r.1 cs
    (r'.1, r.2 :: r'.2)

/-- `m` is `f` as long as it returns, and fails as `f` does. -/
def Body.Does {σ α : Type} (m : Body σ α) (f : σ → Res (σ × α)) : Prop := ∀ s, f s = (m s).2.map (Prod.mk (m s).1)

variable {D T : Type} [FloatOps D] [FloatOps T] [DelayTime D T]

/-- One call on the abstract line, for a maximum that cannot be allocated as well: that is a panic. -/
def SeamLine.call [Target] (l : SeamLine T) (op : DelayOp T) : Option (SeamLine T × Obs T) :=
  match op with
  | .setMaxDelay m => if m < l.hist.length ∨ (m + 1) * size T ≤ isizeMax then l.step op else none
  | op => l.step op

/-- The outcomes of a sequence of calls on the abstract line; a call that panics is as if it had not been made. -/
def SeamLine.session [Target] (l : SeamLine T) : List (DelayOp T) → List (Res (Obs T))
  | [] => []
  | op :: ops =>
    match l.call op with
    | none => .error .panic :: l.session ops
    | some (l', o) => .ok o :: l'.session ops

/-- One call on the abstract interpolating line, for a maximum that cannot be allocated as well: that is a panic. -/
def SeamLinear.call [Target] (place : Placement D T) (l : SeamLinear D T) (op : LinOp D T) :
    Option (SeamLinear D T × Obs T) :=
  match op with
  | .setMaxDelay m => if m < l.hist.length ∨ (m + 1) * size T ≤ isizeMax then l.step place op else none
  | op => l.step place op

/-- The outcomes of a sequence of calls on the abstract interpolating line; a call that panics is as if it had not been
made. -/
def SeamLinear.session [Target] (place : Placement D T) (l : SeamLinear D T) : List (LinOp D T) → List (Res (Obs T))
  | [] => []
  | op :: ops =>
    match l.call place op with
    | none => .error .panic :: l.session place ops
    | some (l', o) => .ok o :: l'.session place ops

/-- The call is not `process`. -/
def DelayOp.NotProcess : DelayOp T → Prop
  | .process _ => False
  | _ => True

/-- The call is not `process`. -/
def LinOp.NotProcess : LinOp D T → Prop
  | .process _ => False
  | _ => True

/-- `usize` arguments; not the one maximum, `usize::MAX`, whose successor overflows, unless overflow is checked. -/
def DelayOp.Any [Target] (b : Build) : DelayOp T → Prop
  | .tapOut k => k < usizeMod
  | .tapIn _ k => k < usizeMod
  | .addTo _ k => k < usizeMod
  | .setMaxDelay m => m < usizeMod ∧ (b.debug = true ∨ m + 1 < usizeMod)
  | _ => True

/-- `usize` arguments; maxima as for `DelayOp.Any`, and either at most `N` slots or too many to allocate. -/
def LinOp.Any [Target] (b : Build) (N : ℕ) : LinOp D T → Prop
  | .tapOut k => k < usizeMod
  | .tapIn _ k => k < usizeMod
  | .addTo _ k => k < usizeMod
  | .setMaxDelay m => (m < N ∨ ¬ Allocatable T m) ∧ m < usizeMod ∧ (b.debug = true ∨ m + 1 < usizeMod)
  | _ => True

end Rasp
