import Verif.Spec.Line
import Verif.Spec.Linear

/-!
# What a panic leaves behind

The other files of the model give the state after a call only if the call returns. A Rust panic unwinds, and the caller can
stop it (`std::panic::catch_unwind`, a joined thread) and go on using the object. This file models the `&mut self` methods
that can panic statement by statement: every assignment takes effect when it is executed, and a panic keeps the assignments
made before it. `Props/Unwind.lean` proves that this second transcription agrees with the first.

Of `Vec` it is assumed that a failing index expression and a failing `resize` change nothing (`resize` reserves before it
writes). A state paired with `Fault.diverge` is never seen by anybody.
-/

namespace Rasp
open FloatOps

/-- A method body on `&mut self`: the object afterwards, whether the body returns or panics, and the outcome. -/
def Body (σ α : Type) : Type := σ → σ × Res α

namespace Body
variable {σ α β : Type}

/-- Sequencing: a panic ends the body and keeps the object as it is. -/
protected def bind (m : Body σ α) (f : α → Body σ β) : Body σ β := fun s =>
  match (m s).2 with
  | .ok a => f a (m s).1
  | .error e => ((m s).1, .error e)

instance : Monad (Body σ) where
  pure a := fun s => (s, .ok a)
  bind := Body.bind

/-- Evaluate an expression that reads `self`. -/
def eval (f : σ → Res α) : Body σ α := fun s => (s, f s)

/-- Assign to fields of `self`. -/
def assign (f : σ → σ) : Body σ Unit := fun s => (f s, .ok ())

end Body

open Body

section Delay
variable {T : Type} [FloatOps T]

/-- src/delay/mod.rs:65-70 -/
def Delay.setMaxDelayBody [Target] (b : Build) (delay : ℕ) : Body (Delay T) Unit := do
  let small ← eval fun s => .ok (decide (delay < s.memory.length))
  if small then pure ()
  else do
    let n ← eval fun _ => uAdd b delay 1
    let memory ← eval fun s => vecResize s.memory n zero
    assign fun s => { s with memory := memory }

/-- src/delay/mod.rs:80-95 -/
def Delay.setDelayBody [Target] (b : Build) (delay : ℕ) : Body (Delay T) Unit := do
  let max_delay_samples ← eval fun s => uSub b s.memory.length 1
  let delay_time := if delay > max_delay_samples then max_delay_samples else delay
  let ahead ← eval fun s => .ok (decide (s.write_ptr ≥ delay_time))
  let r ← eval fun s =>
    if ahead then uSub b s.write_ptr delay_time
    else do
      let t ← uAdd b s.memory.length s.write_ptr
      uSub b t delay_time
  assign fun s => { s with read_ptr := r }
  assign fun s => { s with delay := delay_time }

/-- src/delay/mod.rs:109-120 -/
def Delay.processBody [Target] (b : Build) (sample : T) : Body (Delay T) T := do
  let memory ← eval fun s => idxSet s.memory s.write_ptr sample
  assign fun s => { s with memory := memory }
  let w ← eval fun s => uAdd b s.write_ptr 1
  assign fun s => { s with write_ptr := w }
  let w ← eval fun s => uRem s.write_ptr s.memory.length
  assign fun s => { s with write_ptr := w }
  let output ← eval fun s => idx s.memory s.read_ptr
  assign fun s => { s with output := output }
  let r ← eval fun s => uAdd b s.read_ptr 1
  assign fun s => { s with read_ptr := r }
  let r ← eval fun s => uRem s.read_ptr s.memory.length
  assign fun s => { s with read_ptr := r }
  eval fun s => .ok s.output

/-- src/delay/mod.rs:122-127; the loop over the slots is one assignment, nothing in it can panic -/
def Delay.clearBody : Body (Delay T) Unit := do
  assign fun s => { s with memory := s.memory.map (fun _ => zero) }
  assign fun s => { s with output := zero }

/-- src/delay/mod.rs:143-149 -/
def Delay.tapInBody [Target] (b : Build) (value : T) (tap_delay : ℕ) : Body (Delay T) Unit := do
  let tap ← eval fun s => tapIndex b s.write_ptr tap_delay s.memory.length
  let memory ← eval fun s => idxSet s.memory tap value
  assign fun s => { s with memory := memory }

/-- src/delay/mod.rs:151-158; in line 156 the right-hand side is evaluated before the place assigned to -/
def Delay.addToBody [Target] (b : Build) (value : T) (tap_delay : ℕ) : Body (Delay T) T := do
  let tap ← eval fun s => tapIndex b s.write_ptr tap_delay s.memory.length
  let old ← eval fun s => idx s.memory tap
  let memory ← eval fun s => idxSet s.memory tap (old +. value)
  assign fun s => { s with memory := memory }
  eval fun s => idx s.memory tap

/-- One call on a `Delay`: the object afterwards, also after a panic. The `&self` methods (src/delay/mod.rs:73-75, 98-105,
129-131, 135-141) cannot assign. -/
def Delay.call [Target] (b : Build) : DelayOp T → Body (Delay T) (Obs T)
  | .process x => do let y ← Delay.processBody b x; pure (.sample y)
  | .setDelay d => do Delay.setDelayBody b d; pure .unit
  | .setMaxDelay m => do Delay.setMaxDelayBody b m; pure .unit
  | .getDelay => eval fun s => .ok (.nat s.getDelay)
  | .getMaxDelay => do let m ← eval fun s => s.getMaxDelay b; pure (.nat m)
  | .nextOut => do let y ← eval fun s => s.nextOut; pure (.sample y)
  | .tapOut k => do let y ← eval fun s => s.tapOut b k; pure (.sample y)
  | .tapIn v k => do Delay.tapInBody b v k; pure .unit
  | .addTo v k => do let y ← Delay.addToBody b v k; pure (.sample y)
  | .clear => do Delay.clearBody; pure .unit
  | .lastOut => eval fun s => .ok (.sample s.lastOut)

end Delay

section LinearDelay
variable {D T : Type} [FloatOps D] [FloatOps T] [DelayTime D T]

/-- src/delay/linear_delay.rs:74-77 -/
def LinearDelay.setMaxDelayBody [Target] (b : Build) (delay : ℕ) : Body (LinearDelay D T) Unit := do
  let small ← eval fun s => .ok (decide (delay < s.memory.length))
  if small then pure ()
  else do
    let n ← eval fun _ => uAdd b delay 1
    let memory ← eval fun s => vecResize s.memory n zero
    assign fun s => { s with memory := memory }

/-- src/delay/linear_delay.rs:87-113; `self.delay` is assigned before the loop (line 98) -/
noncomputable def LinearDelay.setDelayBody [Target] (b : Build) (delay : D) : Body (LinearDelay D T) Unit := do
  let m ← eval fun s => uSub b s.memory.length 1
  let delay_time := clipDelay delay (ofUsize m)
  let start ← eval fun s => .ok (ofUsize s.write_ptr -. delay_time)
  assign fun s => { s with delay := delay_time }
  let read_ptr_integer ← eval fun s =>
    whileLoop (fun x : D => lt x zero) (fun x => x +. ofUsize s.memory.length) start
  assign fun s => { s with read_ptr := DelayTime.toUsize T read_ptr_integer }
  assign fun s => { s with read_ptr := if s.read_ptr = s.memory.length then 0 else s.read_ptr }
  assign fun s => { s with alpha := DelayTime.castTo (read_ptr_integer -. ofUsize s.read_ptr) }
  assign fun s => { s with om_alpha := one -. s.alpha }

/-- src/delay/linear_delay.rs:121-138; the first half of the sum is stored in `self.next_out` (line 124) before the second
half is computed -/
def LinearDelay.nextOutBody [Target] (b : Build) : Body (LinearDelay D T) T := do
  let fresh ← eval fun s => .ok s.do_next_out
  if fresh then do
    let m0 ← eval fun s => idx s.memory s.read_ptr
    assign fun s => { s with next_out := m0 *. s.om_alpha }
    let last ← eval fun s => uSub b s.memory.length 1
    let m1 ← eval fun s =>
      if s.read_ptr < last then do
        let r1 ← uAdd b s.read_ptr 1
        idx s.memory r1
      else idx s.memory 0
    assign fun s => { s with next_out := s.next_out +. (m1 *. s.alpha) }
    assign fun s => { s with do_next_out := false }
    eval fun s => .ok s.next_out
  else eval fun s => .ok s.next_out

/-- src/delay/linear_delay.rs:142-157 -/
def LinearDelay.processBody [Target] (b : Build) (sample : T) : Body (LinearDelay D T) T := do
  let memory ← eval fun s => idxSet s.memory s.write_ptr sample
  assign fun s => { s with memory := memory }
  let w ← eval fun s => uAdd b s.write_ptr 1
  assign fun s => { s with write_ptr := w }
  let w ← eval fun s => uRem s.write_ptr s.memory.length
  assign fun s => { s with write_ptr := w }
  let output ← LinearDelay.nextOutBody b
  assign fun s => { s with output := output }
  assign fun s => { s with do_next_out := true }
  let r ← eval fun s => uAdd b s.read_ptr 1
  assign fun s => { s with read_ptr := r }
  let r ← eval fun s => uRem s.read_ptr s.memory.length
  assign fun s => { s with read_ptr := r }
  eval fun s => .ok s.output

/-- src/delay/linear_delay.rs:159-164; the loop over the slots is one assignment, nothing in it can panic -/
def LinearDelay.clearBody : Body (LinearDelay D T) Unit := do
  assign fun s => { s with memory := s.memory.map (fun _ => zero) }
  assign fun s => { s with output := zero }

/-- src/delay/linear_delay.rs:180-186 -/
def LinearDelay.tapInBody [Target] (b : Build) (value : T) (tap_delay : ℕ) : Body (LinearDelay D T) Unit := do
  let tap ← eval fun s => tapIndex b s.write_ptr tap_delay s.memory.length
  let memory ← eval fun s => idxSet s.memory tap value
  assign fun s => { s with memory := memory }

/-- src/delay/linear_delay.rs:188-195; in line 193 the right-hand side is evaluated before the place assigned to -/
def LinearDelay.addToBody [Target] (b : Build) (value : T) (tap_delay : ℕ) : Body (LinearDelay D T) T := do
  let tap ← eval fun s => tapIndex b s.write_ptr tap_delay s.memory.length
  let old ← eval fun s => idx s.memory tap
  let memory ← eval fun s => idxSet s.memory tap (old +. value)
  assign fun s => { s with memory := memory }
  eval fun s => idx s.memory tap

/-- One call on a `LinearDelay`: the object afterwards, also after a panic. `tap_out` (src/delay/linear_delay.rs:172-178) is a
`&self` method. -/
noncomputable def LinearDelay.call [Target] (b : Build) : LinOp D T → Body (LinearDelay D T) (Obs T)
  | .process x => do let y ← LinearDelay.processBody b x; pure (.sample y)
  | .setDelay d => do LinearDelay.setDelayBody b d; pure .unit
  | .setMaxDelay m => do LinearDelay.setMaxDelayBody b m; pure .unit
  | .nextOut => do let y ← LinearDelay.nextOutBody b; pure (.sample y)
  | .tapOut k => do let y ← eval fun s => s.tapOut b k; pure (.sample y)
  | .tapIn v k => do LinearDelay.tapInBody b v k; pure .unit
  | .addTo v k => do let y ← LinearDelay.addToBody b v k; pure (.sample y)
  | .clear => do LinearDelay.clearBody; pure .unit

end LinearDelay

section Block
variable {σ T : Type}

/-- src/traits.rs:40-42, the loop of `process_block`: processor and slice afterwards. A sample is overwritten after its
`process` call has returned. `proc` is the body of `process`. -/
def blockLoopBody (proc : T → Body σ T) (s : σ) : List T → (σ × List T) × Res Unit
  | [] => ((s, []), .ok ())
  | x :: xs =>
    match (proc x s).2 with
    | .ok y =>
      let r := blockLoopBody proc (proc x s).1 xs
      ((r.1.1, y :: r.1.2), r.2)
    | .error e => (((proc x s).1, x :: xs), .error e)

/-- src/traits.rs:39-44 `process_block`, on the pair of processor and slice -/
def processBlockBody (proc : T → Body σ T) : Body (σ × List T) T := do
  fun p => blockLoopBody proc p.1 p.2
  eval fun p => match p.2.getLast? with
    | some y => .ok y
    | none => .error .panic

end Block

end Rasp
