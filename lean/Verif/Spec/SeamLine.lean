import Verif.Spec.Line

/-!
# Abstract specification of a delay line that can grow

`SeamLine` extends the shift register of `Line` by what growth makes observable: the actual delay `eff`, which growth can
make larger than the reported `delay`, and the position `seam` at which growth inserts silence. Tap arguments are arbitrary
`usize` values; a call that panics ends the run.
-/

namespace Rasp
open FloatOps

structure SeamLine (T : Type) where
  hist : List T
  delay : ℕ
  eff : ℕ
  seam : ℕ
  out : T

variable {T : Type} [FloatOps T]

def SeamLine.new (d m : ℕ) : SeamLine T := ⟨List.replicate (m + 1) zero, min d m, min d m, 0, zero⟩

/-- The stored sample that the tap argument `k` denotes on a line of `n` slots: `k` itself up to the maximum, some arguments
beyond alias, the others denote none. -/
def tapOf [Target] (n seam k : ℕ) : Option ℕ :=
  if k < n then some k
  else if k < n + seam then some (k - n)
  else if usizeMod - (n - seam) ≤ k then some (n + k - usizeMod)
  else none

def SeamLine.tap? [Target] (l : SeamLine T) (k : ℕ) : Option ℕ := tapOf l.hist.length l.seam k

/-- One call; `none` is a panic. -/
def SeamLine.step [Target] (l : SeamLine T) : DelayOp T → Option (SeamLine T × Obs T)
  | .process x =>
    let h := x :: l.hist.dropLast
    some ({ l with hist := h, seam := (l.seam + 1) % l.hist.length, out := h.getD l.eff zero },
      .sample (h.getD l.eff zero))
  | .setDelay d =>
    some ({ l with delay := min d (l.hist.length - 1), eff := min d (l.hist.length - 1) }, .unit)
  | .setMaxDelay m =>
    if m < l.hist.length then some (l, .unit)
    else
      let grow := m + 1 - l.hist.length
      some ({ l with
        hist := l.hist.take l.seam ++ List.replicate grow zero ++ l.hist.drop l.seam
        eff := if l.eff ≤ l.seam then l.eff else l.eff + grow }, .unit)
  | .getDelay => some (l, .nat l.delay)
  | .getMaxDelay => some (l, .nat (l.hist.length - 1))
  | .nextOut => some (l, .sample (if l.eff = 0 then l.hist.getD (l.hist.length - 1) zero
      else l.hist.getD (l.eff - 1) zero))
  | .tapOut k => (l.tap? k).map fun k => (l, .sample (l.hist.getD k zero))
  | .tapIn v k => (l.tap? k).map fun k => ({ l with hist := l.hist.set k v }, .unit)
  | .addTo v k => (l.tap? k).map fun k =>
      ({ l with hist := l.hist.set k (l.hist.getD k zero +. v) }, .sample (l.hist.getD k zero +. v))
  | .clear => some ({ l with hist := List.replicate l.hist.length zero, out := zero }, .unit)
  | .lastOut => some (l, .sample l.out)

/-- The values returned by a sequence of calls; `none` if one of them panics. -/
def SeamLine.run [Target] (l : SeamLine T) : List (DelayOp T) → Option (List (Obs T))
  | [] => some []
  | op :: ops =>
    match l.step op with
    | none => none
    | some (l', o) => (l'.run ops).map (o :: ·)

/-- Arguments a caller can pass: `usize` values, and maxima that can be allocated. -/
def DelayOp.Args [Target] : DelayOp T → Prop
  | .tapOut k => k < usizeMod
  | .tapIn _ k => k < usizeMod
  | .addTo _ k => k < usizeMod
  | .setMaxDelay m => Allocatable T m
  | _ => True

/-- A returned value, or `none` for a panic, as an outcome of the model. -/
def outcome {α : Type} : Option α → Res α
  | some a => .ok a
  | none => .error .panic

end Rasp
