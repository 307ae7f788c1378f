import Verif.Model.Windows

/-!
# The code derived for `Window`

src/window/mod.rs:25 `#[derive(Clone, Copy, Debug, Eq, PartialEq)]`. For an enum whose variants have no fields the compiler generates: a
`clone` that copies, an `eq` that compares discriminants, and a `fmt` that writes the name of the variant. `Copy` and `Eq` have no code.
-/

namespace Rasp

/-- The discriminants of src/window/mod.rs:26-41: the variants are numbered from 0 in the order they are declared in. -/
def Window.discriminant : Window → ℤ
  | .rectangular => 0
  | .shaped .triangular => 1
  | .shaped .bartlett => 2
  | .shaped .hann => 3
  | .shaped .hamming => 4
  | .shaped .blackman => 5
  | .shaped .blackmanHarris => 6

/-- src/window/mod.rs:25 `Clone` -/
def Window.clone (w : Window) : Window := w

/-- src/window/mod.rs:25 `PartialEq::eq` -/
def Window.eq (w v : Window) : Bool := w.discriminant == v.discriminant

/-- src/window/mod.rs:25 `PartialEq::ne` (the default method) -/
def Window.ne (w v : Window) : Bool := !w.eq v

/-- src/window/mod.rs:25 `Debug::fmt`: what it writes. -/
def Window.fmt : Window → String
  | .rectangular => "Rectangular"
  | .shaped .triangular => "Triangular"
  | .shaped .bartlett => "Bartlett"
  | .shaped .hann => "Hann"
  | .shaped .hamming => "Hamming"
  | .shaped .blackman => "Blackman"
  | .shaped .blackmanHarris => "BlackmanHarris"

end Rasp
