import Verif.Model.Delay

/-!
# Abstract specification of a delay line: a shift register

`Line` is the list of the last `max_delay + 1` samples, newest first, the delay and the last output. No pointers.
-/

namespace Rasp
open FloatOps

/-- The public methods of `Delay`, with their arguments. -/
inductive DelayOp (T : Type) where
  | process (x : T)
  | setDelay (d : ℕ)
  | setMaxDelay (m : ℕ)
  | getDelay
  | getMaxDelay
  | nextOut
  | tapOut (k : ℕ)
  | tapIn (v : T) (k : ℕ)
  | addTo (v : T) (k : ℕ)
  | clear
  | lastOut

/-- What a call returns. -/
inductive Obs (T : Type) where
  | unit
  | sample (y : T)
  | nat (n : ℕ)

/-- Abstract delay line. -/
structure Line (T : Type) where
  hist : List T
  delay : ℕ
  out : T

variable {T : Type} [FloatOps T]

/-- A new line of delay `d` and maximum `m`: silence. -/
def Line.new (d m : ℕ) : Line T := ⟨List.replicate (m + 1) zero, min d m, zero⟩

/-- One call on the abstract line. Out-of-range reads are given the value `zero`; they are excluded by
`DelayOp.InRange`. Growing the maximum is excluded too. -/
def Line.step (l : Line T) : DelayOp T → Line T × Obs T
  | .process x =>
    let h := x :: l.hist.dropLast
    ({ l with hist := h, out := h.getD l.delay zero }, .sample (h.getD l.delay zero))
  | .setDelay d => ({ l with delay := min d (l.hist.length - 1) }, .unit)
  | .setMaxDelay _ => (l, .unit)
  | .getDelay => (l, .nat l.delay)
  | .getMaxDelay => (l, .nat (l.hist.length - 1))
  | .nextOut => (l, .sample (if l.delay = 0 then l.hist.getD (l.hist.length - 1) zero
      else l.hist.getD (l.delay - 1) zero))
  | .tapOut k => (l, .sample (l.hist.getD k zero))
  | .tapIn v k => ({ l with hist := l.hist.set k v }, .unit)
  | .addTo v k =>
    let z := l.hist.getD k zero +. v
    ({ l with hist := l.hist.set k z }, .sample z)
  | .clear => ({ l with hist := List.replicate l.hist.length zero, out := zero }, .unit)
  | .lastOut => (l, .sample l.out)

/-- A sequence of calls on the abstract line, with all returned values. -/
def Line.run (l : Line T) : List (DelayOp T) → Line T × List (Obs T)
  | [] => (l, [])
  | op :: ops =>
    let r := l.step op
    let r' := r.1.run ops
    (r'.1, r.2 :: r'.2)

/-- Arguments in range for a line with `n = max_delay + 1` slots: tap positions below `n`, no growth. -/
def DelayOp.InRange (n : ℕ) : DelayOp T → Prop
  | .tapOut k => k < n
  | .tapIn _ k => k < n
  | .addTo _ k => k < n
  | .setMaxDelay m => m < n
  | _ => True

/-- One call on the model of the Rust type. -/
def Delay.step [Target] (b : Build) (s : Delay T) : DelayOp T → Res (Delay T × Obs T)
  | .process x => do let (s', y) ← s.process b x; .ok (s', .sample y)
  | .setDelay d => do let s' ← s.setDelay b d; .ok (s', .unit)
  | .setMaxDelay m => do let s' ← s.setMaxDelay b m; .ok (s', .unit)
  | .getDelay => .ok (s, .nat s.getDelay)
  | .getMaxDelay => do let m ← s.getMaxDelay b; .ok (s, .nat m)
  | .nextOut => do let y ← s.nextOut; .ok (s, .sample y)
  | .tapOut k => do let y ← s.tapOut b k; .ok (s, .sample y)
  | .tapIn v k => do let s' ← s.tapIn b v k; .ok (s', .unit)
  | .addTo v k => do let (s', y) ← s.addTo b v k; .ok (s', .sample y)
  | .clear => .ok (s.clear, .unit)
  | .lastOut => .ok (s, .sample s.lastOut)

/-- A sequence of calls on the model of the Rust type, with all returned values. -/
def Delay.run [Target] (b : Build) (s : Delay T) : List (DelayOp T) → Res (Delay T × List (Obs T))
  | [] => .ok (s, [])
  | op :: ops => do
    let (s1, o) ← s.step b op
    let (s2, os) ← Delay.run b s1 ops
    .ok (s2, o :: os)

/-- `(n+1) * size_of::<T>()` is within the allocation limit of `Vec`. -/
def Allocatable [Target] (T : Type) [FloatOps T] (m : ℕ) : Prop := (m + 1) * size T ≤ isizeMax

/-- The sample `k` steps before the latest after `n` samples of stream `x`, zero before the start. -/
def past (x : ℕ → T) (n k : ℕ) : T := if k < n then x (n - 1 - k) else zero

end Rasp

namespace Rasp
open FloatOps
variable {T : Type} [FloatOps T]

/-- Arguments allowed in state `s`: tap positions up to `get_max_delay`, maxima that can be allocated. -/
def DelayOp.Legal [Target] (s : Delay T) : DelayOp T → Prop
  | .tapOut k => k < s.memory.length
  | .tapIn _ k => k < s.memory.length
  | .addTo _ k => k < s.memory.length
  | .setMaxDelay m => Allocatable T m
  | _ => True

/-- States reachable by public calls with allowed arguments. -/
inductive Delay.Reachable [Target] (b : Build) : Delay T → Prop
  | new {d m : ℕ} {s : Delay T} (hm : Allocatable T m) (h : Delay.new b d m = .ok s) : Delay.Reachable b s
  | step {s s' : Delay T} {op : DelayOp T} {o : Obs T} (hs : Delay.Reachable b s) (ho : op.Legal s)
      (h : s.step b op = .ok (s', o)) : Delay.Reachable b s'

/-- What the taps of `s` show: `h`, newest first, over the whole line. -/
def Delay.Stores [Target] (b : Build) (s : Delay T) (h : List T) : Prop :=
  (∃ mx, s.getMaxDelay b = .ok mx ∧ h.length = mx + 1) ∧ ∀ (k : ℕ) (hk : k < h.length), s.tapOut b k = .ok h[k]

/-- Output stream of a pure delay by `e` samples whose line initially holds `h` (newest first, silence beyond). -/
def delayedBy (e : ℕ) (h : List T) (x : ℕ → T) (n : ℕ) : T :=
  if e ≤ n then x (n - e) else h.getD (e - n - 1) zero

end Rasp
