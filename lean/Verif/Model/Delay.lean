import Verif.Model.Traits

/-!
# Model of src/delay/mod.rs
-/

namespace Rasp
open FloatOps
variable {T : Type} [FloatOps T]

/-- src/delay/mod.rs:14-22. `Vec<T>` is a list; the capacity is not modelled. -/
structure Delay (T : Type) where
  memory : List T
  output : T
  read_ptr : ℕ
  write_ptr : ℕ
  delay : ℕ

/-- src/delay/mod.rs:80-95 -/
def Delay.setDelay [Target] (b : Build) (s : Delay T) (delay : ℕ) : Res (Delay T) := do
  let max_delay_samples ← uSub b s.memory.length 1
  let delay_time := if delay > max_delay_samples then max_delay_samples else delay
  if s.write_ptr ≥ delay_time then
    let r ← uSub b s.write_ptr delay_time
    .ok { s with read_ptr := r, delay := delay_time }
  else
    let t ← uAdd b s.memory.length s.write_ptr
    let r ← uSub b t delay_time
    .ok { s with read_ptr := r, delay := delay_time }

/-- src/delay/mod.rs:45-62 -/
def Delay.new [Target] (b : Build) (delay max_delay : ℕ) : Res (Delay T) := do
  let delay_time := if delay > max_delay then max_delay else delay
  let n ← uAdd b max_delay 1
  let memory ← vecNew (zero : T) n
  Delay.setDelay b { memory := memory, output := zero, read_ptr := 0, write_ptr := 0, delay := 0 } delay_time

/-- src/delay/mod.rs:65-70 -/
def Delay.setMaxDelay [Target] (b : Build) (s : Delay T) (delay : ℕ) : Res (Delay T) :=
  if delay < s.memory.length then .ok s
  else do
    let n ← uAdd b delay 1
    let memory ← vecResize s.memory n zero
    .ok { s with memory := memory }

/-- src/delay/mod.rs:73-75 -/
def Delay.getMaxDelay [Target] (b : Build) (s : Delay T) : Res ℕ := uSub b s.memory.length 1

/-- src/delay/mod.rs:98-100 -/
def Delay.getDelay (s : Delay T) : ℕ := s.delay

/-- src/delay/mod.rs:103-105 -/
def Delay.nextOut (s : Delay T) : Res T := idx s.memory s.read_ptr

/-- src/delay/mod.rs:109-120 -/
def Delay.process [Target] (b : Build) (s : Delay T) (sample : T) : Res (Delay T × T) := do
  let memory ← idxSet s.memory s.write_ptr sample
  let w ← uAdd b s.write_ptr 1
  let write_ptr ← uRem w memory.length
  let output ← idx memory s.read_ptr
  let r ← uAdd b s.read_ptr 1
  let read_ptr ← uRem r memory.length
  .ok ({ s with memory := memory, output := output, read_ptr := read_ptr, write_ptr := write_ptr }, output)

/-- src/delay/mod.rs:122-127 (the pointers and `delay` are kept) -/
def Delay.clear (s : Delay T) : Delay T :=
  { s with memory := s.memory.map (fun _ => zero), output := zero }

/-- src/delay/mod.rs:129-131 -/
def Delay.lastOut (s : Delay T) : T := s.output

instance [Target] : Processor (Delay T) T where
  process := Delay.process
  clear := Delay.clear
  lastOut := Delay.lastOut

/-- The tap index, the same four lines in every tap method: src/delay/mod.rs:136-139, 144-147, 152-155 and
src/delay/linear_delay.rs:173-176, 181-184, 189-192; the final `tap as usize` is included. -/
def tapIndex [Target] (b : Build) (write_ptr tap_delay len : ℕ) : Res ℕ := do
  let t ← iSub b (asIsize write_ptr) (asIsize tap_delay)
  let tap ← iSub b t 1
  if tap < 0 then
    let tap' ← iAdd b tap (asIsize len)
    .ok (asUsize tap')
  else .ok (asUsize tap)

/-- src/delay/mod.rs:135-141 -/
def Delay.tapOut [Target] (b : Build) (s : Delay T) (tap_delay : ℕ) : Res T := do
  let tap ← tapIndex b s.write_ptr tap_delay s.memory.length
  idx s.memory tap

/-- src/delay/mod.rs:143-149 -/
def Delay.tapIn [Target] (b : Build) (s : Delay T) (value : T) (tap_delay : ℕ) : Res (Delay T) := do
  let tap ← tapIndex b s.write_ptr tap_delay s.memory.length
  let memory ← idxSet s.memory tap value
  .ok { s with memory := memory }

/-- src/delay/mod.rs:151-158 -/
def Delay.addTo [Target] (b : Build) (s : Delay T) (value : T) (tap_delay : ℕ) : Res (Delay T × T) := do
  let tap ← tapIndex b s.write_ptr tap_delay s.memory.length
  let old ← idx s.memory tap
  let memory ← idxSet s.memory tap (old +. value)
  let out ← idx memory tap
  .ok ({ s with memory := memory }, out)

instance [Target] : TappableDelayLine (Delay T) T where
  tapOut := Delay.tapOut
  tapIn := Delay.tapIn
  addTo := Delay.addTo

end Rasp
