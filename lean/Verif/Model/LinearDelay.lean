import Verif.Model.Delay
import Verif.Float.IEEE
import Verif.Float.Real

/-!
# Model of src/delay/linear_delay.rs

The delay time is an `f32` whatever the sample type `T` is, so the model has two number types: `D` for the
delay time (`f32`, or `ℝ` in exact arithmetic) and `T` for the samples.
-/

namespace Rasp
open FloatOps

/-- The two conversions out of `f32` used by src/delay/linear_delay.rs. -/
class DelayTime (D T : Type) where
  /-- `x as usize`, src/delay/linear_delay.rs:105 -/
  toUsize : D → ℕ
  /-- `num::cast::<f32, T>(x).unwrap()`, src/delay/linear_delay.rs:111. Never `None` for `T = f32, f64`. -/
  castTo : D → T

/-- Exact arithmetic: truncation of a non-negative value, saturating; the cast is the identity. -/
noncomputable instance [Target] : DelayTime ℝ ℝ where
  toUsize x := min ⌊x⌋.toNat (usizeMod - 1)
  castTo x := x

/-- `f32` delay times, samples in any IEEE format. -/
noncomputable instance [Target] {L32 : Libm binary32} {f : Fmt} {L : Libm f} : DelayTime (Fl L32) (Fl L) where
  toUsize x := FP.toUsize (f := binary32) x
  castTo x := FP.conv (f := binary32) f x

/-- src/delay/linear_delay.rs:10-23 -/
structure LinearDelay (D T : Type) where
  memory : List T
  output : T
  read_ptr : ℕ
  write_ptr : ℕ
  delay : D
  do_next_out : Bool
  next_out : T
  alpha : T
  om_alpha : T

variable {D T : Type} [FloatOps D] [FloatOps T] [DelayTime D T]

/-- The two `if`s that clip the delay time: src/delay/linear_delay.rs:48-54 and 88-95. A NaN passes both. -/
def clipDelay (delay max : D) : D :=
  let delay_time := if lt max delay then max else delay
  if lt delay_time (zero : D) then zero else delay_time

/-- src/delay/linear_delay.rs:87-113 -/
noncomputable def LinearDelay.setDelay [Target] (b : Build) (s : LinearDelay D T) (delay : D) :
    Res (LinearDelay D T) := do
  let m ← uSub b s.memory.length 1
  let delay_time := clipDelay delay (ofUsize m)
  let read_ptr_integer ←
    whileLoop (fun x : D => lt x zero) (fun x => x +. ofUsize s.memory.length)
      (ofUsize s.write_ptr -. delay_time)
  let r := DelayTime.toUsize T read_ptr_integer
  let read_ptr := if r = s.memory.length then 0 else r
  let alpha : T := DelayTime.castTo (read_ptr_integer -. ofUsize read_ptr)
  .ok { s with delay := delay_time, read_ptr := read_ptr, alpha := alpha, om_alpha := one -. alpha }

/-- src/delay/linear_delay.rs:46-71 -/
noncomputable def LinearDelay.new [Target] (b : Build) (delay : D) (max_delay : ℕ) : Res (LinearDelay D T) := do
  let delay_time := clipDelay delay (ofUsize max_delay)
  let n ← uAdd b max_delay 1
  let memory ← vecNew (zero : T) n
  LinearDelay.setDelay b
    { memory := memory, output := zero, read_ptr := 0, write_ptr := 0, delay := zero,
      do_next_out := true, next_out := zero, alpha := zero, om_alpha := zero } delay_time

/-- src/delay/linear_delay.rs:74-77 -/
def LinearDelay.setMaxDelay [Target] (b : Build) (s : LinearDelay D T) (delay : ℕ) : Res (LinearDelay D T) :=
  if delay < s.memory.length then .ok s
  else do
    let n ← uAdd b delay 1
    let memory ← vecResize s.memory n zero
    .ok { s with memory := memory }

/-- src/delay/linear_delay.rs:80-82 -/
def LinearDelay.getMaxDelay [Target] (b : Build) (s : LinearDelay D T) : Res ℕ := uSub b s.memory.length 1

/-- src/delay/linear_delay.rs:116-118 -/
def LinearDelay.getDelay (s : LinearDelay D T) : D := s.delay

/-- src/delay/linear_delay.rs:121-138 -/
def LinearDelay.nextOut [Target] (b : Build) (s : LinearDelay D T) : Res (LinearDelay D T × T) :=
  if s.do_next_out then do
    let m0 ← idx s.memory s.read_ptr
    let n0 := m0 *. s.om_alpha
    let last ← uSub b s.memory.length 1
    if s.read_ptr < last then
      let r1 ← uAdd b s.read_ptr 1
      let m1 ← idx s.memory r1
      let n1 := n0 +. (m1 *. s.alpha)
      .ok ({ s with next_out := n1, do_next_out := false }, n1)
    else
      let m1 ← idx s.memory 0
      let n1 := n0 +. (m1 *. s.alpha)
      .ok ({ s with next_out := n1, do_next_out := false }, n1)
  else .ok (s, s.next_out)

/-- src/delay/linear_delay.rs:142-157 -/
def LinearDelay.process [Target] (b : Build) (s : LinearDelay D T) (sample : T) : Res (LinearDelay D T × T) := do
  let memory ← idxSet s.memory s.write_ptr sample
  let w ← uAdd b s.write_ptr 1
  let write_ptr ← uRem w memory.length
  let (s1, output) ← LinearDelay.nextOut b { s with memory := memory, write_ptr := write_ptr }
  let r ← uAdd b s1.read_ptr 1
  let read_ptr ← uRem r s1.memory.length
  .ok ({ s1 with output := output, do_next_out := true, read_ptr := read_ptr }, output)

/-- src/delay/linear_delay.rs:159-164 (pointers, weights and a pending `next_out` are kept) -/
def LinearDelay.clear (s : LinearDelay D T) : LinearDelay D T :=
  { s with memory := s.memory.map (fun _ => zero), output := zero }

/-- src/delay/linear_delay.rs:166-168 -/
def LinearDelay.lastOut (s : LinearDelay D T) : T := s.output

instance [Target] : Processor (LinearDelay D T) T where
  process := LinearDelay.process
  clear := LinearDelay.clear
  lastOut := LinearDelay.lastOut

/-- src/delay/linear_delay.rs:172-178 -/
def LinearDelay.tapOut [Target] (b : Build) (s : LinearDelay D T) (tap_delay : ℕ) : Res T := do
  let tap ← tapIndex b s.write_ptr tap_delay s.memory.length
  idx s.memory tap

/-- src/delay/linear_delay.rs:180-186 -/
def LinearDelay.tapIn [Target] (b : Build) (s : LinearDelay D T) (value : T) (tap_delay : ℕ) :
    Res (LinearDelay D T) := do
  let tap ← tapIndex b s.write_ptr tap_delay s.memory.length
  let memory ← idxSet s.memory tap value
  .ok { s with memory := memory }

/-- src/delay/linear_delay.rs:188-195 -/
def LinearDelay.addTo [Target] (b : Build) (s : LinearDelay D T) (value : T) (tap_delay : ℕ) :
    Res (LinearDelay D T × T) := do
  let tap ← tapIndex b s.write_ptr tap_delay s.memory.length
  let old ← idx s.memory tap
  let memory ← idxSet s.memory tap (old +. value)
  let out ← idx memory tap
  .ok ({ s with memory := memory }, out)

instance [Target] : TappableDelayLine (LinearDelay D T) T where
  tapOut := LinearDelay.tapOut
  tapIn := LinearDelay.tapIn
  addTo := LinearDelay.addTo

end Rasp
