import Verif.Model.Traits

/-!
# Model of src/filter/{one_pole,one_zero,two_pole,two_zero,biquad}.rs

The filters do no integer arithmetic and no indexing, so they cannot panic: each `process` is a total function,
wrapped with `.ok` in the `Processor` instance. Operator precedence and association follow the Rust source.
-/

namespace Rasp
open FloatOps
variable {T : Type} [FloatOps T]

/-! ## OnePole -/

/-- src/filter/one_pole.rs:13-17 -/
structure OnePole (T : Type) where
  y_z1 : T
  b0 : T
  a1 : T

/-- src/filter/one_pole.rs:36-42 -/
def OnePole.new : OnePole T := { y_z1 := zero, b0 := one, a1 := zero }

/-- src/filter/one_pole.rs:47-50 -/
def OnePole.setCoefficients (s : OnePole T) (b0 a1 : T) : OnePole T := { s with b0 := b0, a1 := a1 }

/-- src/filter/one_pole.rs:54-58 -/
def OnePole.process (s : OnePole T) (sample : T) : OnePole T × T :=
  let output := s.b0 *. sample -. s.a1 *. s.y_z1
  ({ s with y_z1 := output }, output)

/-- src/filter/one_pole.rs:60-62 -/
def OnePole.clear (s : OnePole T) : OnePole T := { s with y_z1 := zero }

/-- src/filter/one_pole.rs:64-66 -/
def OnePole.lastOut (s : OnePole T) : T := s.y_z1

instance : Processor (OnePole T) T where
  process _ s x := .ok (s.process x)
  clear := OnePole.clear
  lastOut := OnePole.lastOut

/-! ## OneZero -/

/-- src/filter/one_zero.rs:13-18 -/
structure OneZero (T : Type) where
  x_z1 : T
  output : T
  b0 : T
  b1 : T

/-- src/filter/one_zero.rs:37-44 -/
def OneZero.new : OneZero T := { x_z1 := zero, output := zero, b0 := one, b1 := zero }

/-- src/filter/one_zero.rs:49-52 -/
def OneZero.setCoefficients (s : OneZero T) (b0 b1 : T) : OneZero T := { s with b0 := b0, b1 := b1 }

/-- src/filter/one_zero.rs:56-60 -/
def OneZero.process (s : OneZero T) (sample : T) : OneZero T × T :=
  let output := s.b0 *. sample +. s.b1 *. s.x_z1
  ({ s with output := output, x_z1 := sample }, output)

/-- src/filter/one_zero.rs:62-64 (does not reset `output`) -/
def OneZero.clear (s : OneZero T) : OneZero T := { s with x_z1 := zero }

/-- src/filter/one_zero.rs:66-68 -/
def OneZero.lastOut (s : OneZero T) : T := s.output

instance : Processor (OneZero T) T where
  process _ s x := .ok (s.process x)
  clear := OneZero.clear
  lastOut := OneZero.lastOut

/-! ## TwoPole -/

/-- src/filter/two_pole.rs:13-19 -/
structure TwoPole (T : Type) where
  y_z1 : T
  y_z2 : T
  b0 : T
  a1 : T
  a2 : T

/-- src/filter/two_pole.rs:38-46 -/
def TwoPole.new : TwoPole T := { y_z1 := zero, y_z2 := zero, b0 := one, a1 := zero, a2 := zero }

/-- src/filter/two_pole.rs:51-55 -/
def TwoPole.setCoefficients (s : TwoPole T) (b0 a1 a2 : T) : TwoPole T :=
  { s with b0 := b0, a1 := a1, a2 := a2 }

/-- src/filter/two_pole.rs:59-64 -/
def TwoPole.process (s : TwoPole T) (sample : T) : TwoPole T × T :=
  let output := s.b0 *. sample -. s.a1 *. s.y_z1 -. s.a2 *. s.y_z2
  ({ s with y_z2 := s.y_z1, y_z1 := output }, output)

/-- src/filter/two_pole.rs:66-69 -/
def TwoPole.clear (s : TwoPole T) : TwoPole T := { s with y_z1 := zero, y_z2 := zero }

/-- src/filter/two_pole.rs:71-73 -/
def TwoPole.lastOut (s : TwoPole T) : T := s.y_z1

instance : Processor (TwoPole T) T where
  process _ s x := .ok (s.process x)
  clear := TwoPole.clear
  lastOut := TwoPole.lastOut

/-! ## TwoZero -/

/-- src/filter/two_zero.rs:13-20 -/
structure TwoZero (T : Type) where
  x_z1 : T
  x_z2 : T
  output : T
  b0 : T
  b1 : T
  b2 : T

/-- src/filter/two_zero.rs:39-48 -/
def TwoZero.new : TwoZero T :=
  { x_z1 := zero, x_z2 := zero, output := zero, b0 := one, b1 := zero, b2 := zero }

/-- src/filter/two_zero.rs:53-57 -/
def TwoZero.setCoefficients (s : TwoZero T) (b0 b1 b2 : T) : TwoZero T :=
  { s with b0 := b0, b1 := b1, b2 := b2 }

/-- src/filter/two_zero.rs:61-66 -/
def TwoZero.process (s : TwoZero T) (sample : T) : TwoZero T × T :=
  let output := s.b0 *. sample +. s.b1 *. s.x_z1 +. s.b2 *. s.x_z2
  ({ s with output := output, x_z2 := s.x_z1, x_z1 := sample }, output)

/-- src/filter/two_zero.rs:68-71 (does not reset `output`) -/
def TwoZero.clear (s : TwoZero T) : TwoZero T := { s with x_z1 := zero, x_z2 := zero }

/-- src/filter/two_zero.rs:73-75 -/
def TwoZero.lastOut (s : TwoZero T) : T := s.output

instance : Processor (TwoZero T) T where
  process _ s x := .ok (s.process x)
  clear := TwoZero.clear
  lastOut := TwoZero.lastOut

/-! ## Biquad1, direct form I -/

/-- src/filter/biquad.rs:29-39 -/
structure Biquad1 (T : Type) where
  x_z1 : T
  x_z2 : T
  y_z1 : T
  y_z2 : T
  b0 : T
  b1 : T
  b2 : T
  a1 : T
  a2 : T

/-- src/filter/biquad.rs:58-70 -/
def Biquad1.new : Biquad1 T :=
  { x_z1 := zero, x_z2 := zero, y_z1 := zero, y_z2 := zero,
    b0 := one, b1 := zero, b2 := zero, a1 := zero, a2 := zero }

/-- src/filter/biquad.rs:76-82 -/
def Biquad1.setCoefficients (s : Biquad1 T) (b0 b1 b2 a1 a2 : T) : Biquad1 T :=
  { s with b0 := b0, b1 := b1, b2 := b2, a1 := a1, a2 := a2 }

/-- src/filter/biquad.rs:86-95 -/
def Biquad1.process (s : Biquad1 T) (sample : T) : Biquad1 T × T :=
  let output := s.b0 *. sample
    +. s.b1 *. s.x_z1 +. s.b2 *. s.x_z2
    -. s.a1 *. s.y_z1 -. s.a2 *. s.y_z2
  ({ s with x_z2 := s.x_z1, x_z1 := sample, y_z2 := s.y_z1, y_z1 := output }, output)

/-- src/filter/biquad.rs:97-102 -/
def Biquad1.clear (s : Biquad1 T) : Biquad1 T :=
  { s with x_z1 := zero, x_z2 := zero, y_z1 := zero, y_z2 := zero }

/-- src/filter/biquad.rs:104-106 -/
def Biquad1.lastOut (s : Biquad1 T) : T := s.y_z1

instance : Processor (Biquad1 T) T where
  process _ s x := .ok (s.process x)
  clear := Biquad1.clear
  lastOut := Biquad1.lastOut

/-! ## Biquad2, transposed direct form II -/

/-- src/filter/biquad.rs:118-127 -/
structure Biquad2 (T : Type) where
  z1 : T
  z2 : T
  output : T
  b0 : T
  b1 : T
  b2 : T
  a1 : T
  a2 : T

/-- src/filter/biquad.rs:146-157 -/
def Biquad2.new : Biquad2 T :=
  { z1 := zero, z2 := zero, output := zero,
    b0 := one, b1 := zero, b2 := zero, a1 := zero, a2 := zero }

/-- src/filter/biquad.rs:163-169 -/
def Biquad2.setCoefficients (s : Biquad2 T) (b0 b1 b2 a1 a2 : T) : Biquad2 T :=
  { s with b0 := b0, b1 := b1, b2 := b2, a1 := a1, a2 := a2 }

/-- src/filter/biquad.rs:173-178 -/
def Biquad2.process (s : Biquad2 T) (sample : T) : Biquad2 T × T :=
  let output := s.b0 *. sample +. s.z1
  let z1 := s.b1 *. sample +. s.z2 -. s.a1 *. output
  let z2 := s.b2 *. sample -. s.a2 *. output
  ({ s with output := output, z1 := z1, z2 := z2 }, output)

/-- src/filter/biquad.rs:180-184 -/
def Biquad2.clear (s : Biquad2 T) : Biquad2 T := { s with z1 := zero, z2 := zero, output := zero }

/-- src/filter/biquad.rs:186-188 -/
def Biquad2.lastOut (s : Biquad2 T) : T := s.output

instance : Processor (Biquad2 T) T where
  process _ s x := .ok (s.process x)
  clear := Biquad2.clear
  lastOut := Biquad2.lastOut

end Rasp
