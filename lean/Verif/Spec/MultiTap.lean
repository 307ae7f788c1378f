import Verif.Model.Traits
import Verif.Spec.Diff

/-!
# Client programs with several taps

Two textbook ways to build a finite impulse response out of a tappable delay line: read several taps after each
sample (`gather`), or add into several taps after each sample (`scatter`). Only trait methods are called.
-/

namespace Rasp
open FloatOps
variable {σ T : Type} [FloatOps T] [Processor σ T] [TappableDelayLine σ T]

/-- `for &(c, k) in taps { acc = acc + c * line.tap_out(k) }`. -/
def gatherTaps (b : Build) (s : σ) : List (T × ℕ) → T → Res T
  | [], acc => .ok acc
  | (c, k) :: taps, acc => do
    let z ← TappableDelayLine.tapOut b s k
    gatherTaps b s taps (acc +. c *. z)

/-- `line.process(x)`, then the weighted sum of the taps. -/
def gather (b : Build) (taps : List (T × ℕ)) (s : σ) (x : T) : Res (σ × T) := do
  let (s', _) ← Processor.process b s x
  let y ← gatherTaps b s' taps zero
  .ok (s', y)

/-- `for &(c, k) in taps { line.add_to(c * x, k) }`. -/
def scatterTaps (b : Build) (x : T) : List (T × ℕ) → σ → Res σ
  | [], s => .ok s
  | (c, k) :: taps, s => do
    let (s', _) ← TappableDelayLine.addTo b s (c *. x) k
    scatterTaps b x taps s'

/-- `let y = line.process(v)`, then `x` is added into the taps with its weights. -/
def scatter (b : Build) (taps : List (T × ℕ)) (s : σ) (v x : T) : Res (σ × T) := do
  let (s', y) ← Processor.process b s v
  let s'' ← scatterTaps b x taps s'
  .ok (s'', y)

/-- Reading the taps after every sample of `x`, from state `s`, runs without a panic and gives `y`. -/
def Gathers (b : Build) (taps : List (T × ℕ)) (s : σ) (x y : ℕ → T) : Prop :=
  ∃ st : ℕ → σ, st 0 = s ∧ ∀ n, gather b taps (st n) (x n) = .ok (st (n + 1), y n)

/-- Processing `v` and adding `x` into the taps, from state `s`, runs without a panic and gives `y`. -/
def Scatters (b : Build) (taps : List (T × ℕ)) (s : σ) (v x y : ℕ → T) : Prop :=
  ∃ st : ℕ → σ, st 0 = s ∧ ∀ n, scatter b taps (st n) (v n) (x n) = .ok (st (n + 1), y n)

/-- The finite impulse response with weight `c` at delay `k` for each `(c, k)` of the list, summed in list order. -/
def fir (taps : List (T × ℕ)) (x : ℕ → T) (n : ℕ) : T :=
  taps.foldl (fun acc p => acc +. p.1 *. lag x p.2 n) zero

end Rasp
