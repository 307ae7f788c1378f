import Verif.Rust.Res

/-!
# Model of src/traits.rs
-/

namespace Rasp

/-- src/traits.rs:32-51, trait `Processor<T>`: the required methods. `&mut self` methods return the new state.
`process` may panic (delay lines index a `Vec`) and receives the build profile. -/
class Processor (σ : Type) (T : outParam Type) where
  /-- src/traits.rs:35 `fn process(&mut self, sample: T) -> T` -/
  process : Build → σ → T → Res (σ × T)
  /-- src/traits.rs:47 `fn clear(&mut self)` -/
  clear : σ → σ
  /-- src/traits.rs:50 `fn last_out(&self) -> T` -/
  lastOut : σ → T

section
variable {σ T : Type} [Processor σ T]

/-- src/traits.rs:40-42, the loop of `process_block`: `for sample in samples.iter_mut() { *sample = self.process(*sample); }`.
Returns the new state and the overwritten slice. -/
def blockLoop (b : Build) (s : σ) : List T → Res (σ × List T)
  | [] => .ok (s, [])
  | x :: xs => do
    let (s', y) ← Processor.process b s x
    let (s'', ys) ← blockLoop b s' xs
    .ok (s'', y :: ys)

/-- src/traits.rs:39-44 `fn process_block(&mut self, samples: &mut [T]) -> T`: the loop, then
`*samples.last().unwrap()`, which panics on an empty slice. Returns state, slice contents and return value. -/
def processBlock (b : Build) (s : σ) (samples : List T) : Res (σ × List T × T) := do
  let (s', ys) ← blockLoop b s samples
  match ys.getLast? with
  | some y => .ok (s', ys, y)
  | none => .error .panic

end

/-- src/traits.rs:57-69, trait `TappableDelayLine<T>`. -/
class TappableDelayLine (σ : Type) (T : outParam Type) where
  tapOut : Build → σ → ℕ → Res T
  tapIn : Build → σ → T → ℕ → Res σ
  addTo : Build → σ → T → ℕ → Res (σ × T)

end Rasp
