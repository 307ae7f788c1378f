import Verif.Spec.SeamLine
import Verif.Spec.Linear
import Mathlib.Algebra.Order.Floor.Semiring

/-!
# Abstract specification of an interpolating delay line

Like `SeamLine`, but the output mixes two neighbouring stored samples, and a value announced by `next_out` stays pending
until the next `process`. How `set_delay` chooses the two samples and their weights is a parameter `place`.
-/

namespace Rasp
open FloatOps

/-- Stored samples (newest first), reported delay, the two neighbours `eff`, `eff - 1` and the weight `frac` of the second,
the place where growth inserts silence, the value announced by `next_out`, the last output. -/
structure SeamLinear (D T : Type) where
  hist : List T
  delay : D
  eff : ℕ
  frac : T
  seam : ℕ
  pending : Option T
  out : T

/-- Where `set_delay d` places the read position on a line of `n` slots with the given seam: `place seam n d` is the reported
delay, the first neighbour and the weight of the second. -/
abbrev Placement (D T : Type) := ℕ → ℕ → D → D × ℕ × T

variable {D T : Type} [FloatOps D] [FloatOps T] [DelayTime D T]

def SeamLinear.set (place : Placement D T) (l : SeamLinear D T) (d : D) : SeamLinear D T :=
  let p := place l.seam l.hist.length d
  { l with delay := p.1, eff := p.2.1, frac := p.2.2 }

def SeamLinear.new (place : Placement D T) (d : D) (m : ℕ) : SeamLinear D T :=
  SeamLinear.set place ⟨List.replicate (m + 1) zero, zero, 0, zero, 0, none, zero⟩ d

/-- The mix read from stored samples `h`; the neighbour of the newest sample is the oldest. -/
def SeamLinear.mix (l : SeamLinear D T) (h : List T) : T :=
  (h.getD l.eff zero *. (one -. l.frac)) +.
    (h.getD (if l.eff = 0 then h.length - 1 else l.eff - 1) zero *. l.frac)

/-- One call; `none` is a panic. `next_out` announces what the output would be if the next sample were equal to the oldest
stored one. -/
def SeamLinear.step [Target] (place : Placement D T) (l : SeamLinear D T) : LinOp D T → Option (SeamLinear D T × Obs T)
  | .process x =>
    let h := x :: l.hist.dropLast
    let y := l.pending.getD (l.mix h)
    some ({ l with hist := h, seam := (l.seam + 1) % l.hist.length, pending := none, out := y }, .sample y)
  | .setDelay d => some (l.set place d, .unit)
  | .setMaxDelay m =>
    if m < l.hist.length then some (l, .unit)
    else
      let grow := m + 1 - l.hist.length
      some ({ l with
        hist := l.hist.take l.seam ++ List.replicate grow zero ++ l.hist.drop l.seam
        eff := if l.eff ≤ l.seam then l.eff else l.eff + grow }, .unit)
  | .nextOut =>
    let y := l.pending.getD (l.mix (l.hist.getD (l.hist.length - 1) zero :: l.hist.dropLast))
    some ({ l with pending := some y }, .sample y)
  | .tapOut k => (tapOf l.hist.length l.seam k).map fun k => (l, .sample (l.hist.getD k zero))
  | .tapIn v k => (tapOf l.hist.length l.seam k).map fun k => ({ l with hist := l.hist.set k v }, .unit)
  | .addTo v k => (tapOf l.hist.length l.seam k).map fun k =>
      ({ l with hist := l.hist.set k (l.hist.getD k zero +. v) }, .sample (l.hist.getD k zero +. v))
  | .clear => some ({ l with hist := List.replicate l.hist.length zero, out := zero }, .unit)

/-- The values returned by a sequence of calls and the final state; `none` if a call panics. -/
def SeamLinear.run [Target] (place : Placement D T) (l : SeamLinear D T) :
    List (LinOp D T) → Option (SeamLinear D T × List (Obs T))
  | [] => some (l, [])
  | op :: ops =>
    match l.step place op with
    | none => none
    | some (l', o) => (l'.run place ops).map fun r => (r.1, o :: r.2)

/-- Arguments a caller can pass: `usize` values, and maxima that can be allocated, with at most `N` slots. -/
def LinOp.Args [Target] (N : ℕ) : LinOp D T → Prop
  | .tapOut k => k < usizeMod
  | .tapIn _ k => k < usizeMod
  | .addTo _ k => k < usizeMod
  | .setMaxDelay m => Allocatable T m ∧ m < N
  | _ => True

/-- Exact arithmetic: the delay is clipped to the line and read between the samples below and above it. -/
noncomputable def exactPlace : Placement ℝ ℝ := fun _ n d =>
  let d' : ℝ := max 0 (min d (n - 1 : ℕ))
  (d', ⌈d'⌉₊, ⌈d'⌉₊ - d')

end Rasp
