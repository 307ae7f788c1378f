import Verif.Model.Filters

/-!
# Model of src/filter/rbj/*.rs

Each rbj filter wraps a `Biquad2`. `set_coefficients` computes the cookbook coefficients, divides them by `a0`,
stores them in the wrapped biquad and clears its memory. Operator order follows the Rust source
(`two * T::pi() * f / sr` is `((two*pi)*f)/sr`, `-two * c` is `(-two)*c`, `-one - c` is `(-one) - c`).
-/

namespace Rasp
open FloatOps
variable {T : Type} [FloatOps T]

/-- The common tail of every `set_coefficients` (e.g. src/filter/rbj/lowpass.rs:44-51): normalise by `a0`,
`self.biquad.set_coefficients(..)`, `self.clear()`. -/
def rbjStore (s : Biquad2 T) (b0 b1 b2 a0 a1 a2 : T) : Biquad2 T :=
  (s.setCoefficients (b0 /. a0) (b1 /. a0) (b2 /. a0) (a1 /. a0) (a2 /. a0)).clear

/-! ## LowPass -/

/-- src/filter/rbj/lowpass.rs:7-9 -/
structure LowPass (T : Type) where
  biquad : Biquad2 T

/-- src/filter/rbj/lowpass.rs:13-17 -/
def LowPass.new : LowPass T := ⟨Biquad2.new⟩

/-- src/filter/rbj/lowpass.rs:25-52 -/
def LowPass.setCoefficients (s : LowPass T) (sample_rate cutoff_frequency q : T) : LowPass T :=
  let w0 := two *. pi *. cutoff_frequency /. sample_rate
  let cos_w0 := cos w0
  let alpha := sin w0 /. (two *. q)
  let b0 := (one -. cos_w0) /. two
  let b1 := one -. cos_w0
  let b2 := b0
  let a0 := one +. alpha
  let a1 := neg two *. cos_w0
  let a2 := one -. alpha
  ⟨rbjStore s.biquad b0 b1 b2 a0 a1 a2⟩

/-- src/filter/rbj/lowpass.rs:56-58 -/
def LowPass.process (s : LowPass T) (sample : T) : LowPass T × T :=
  let r := s.biquad.process sample
  (⟨r.1⟩, r.2)

/-- src/filter/rbj/lowpass.rs:60-62 -/
def LowPass.clear (s : LowPass T) : LowPass T := ⟨s.biquad.clear⟩

/-- src/filter/rbj/lowpass.rs:64-66 -/
def LowPass.lastOut (s : LowPass T) : T := s.biquad.lastOut

instance : Processor (LowPass T) T where
  process _ s x := .ok (s.process x)
  clear := LowPass.clear
  lastOut := LowPass.lastOut

/-! ## HighPass -/

/-- src/filter/rbj/highpass.rs:7-9 -/
structure HighPass (T : Type) where
  biquad : Biquad2 T

/-- src/filter/rbj/highpass.rs:13-17 -/
def HighPass.new : HighPass T := ⟨Biquad2.new⟩

/-- src/filter/rbj/highpass.rs:25-52 -/
def HighPass.setCoefficients (s : HighPass T) (sample_rate cutoff_frequency q : T) : HighPass T :=
  let w0 := two *. pi *. cutoff_frequency /. sample_rate
  let cos_w0 := cos w0
  let alpha := sin w0 /. (two *. q)
  let b0 := (one +. cos_w0) /. two
  let b1 := neg one -. cos_w0
  let b2 := b0
  let a0 := one +. alpha
  let a1 := neg two *. cos_w0
  let a2 := one -. alpha
  ⟨rbjStore s.biquad b0 b1 b2 a0 a1 a2⟩

/-- src/filter/rbj/highpass.rs:56-58 -/
def HighPass.process (s : HighPass T) (sample : T) : HighPass T × T :=
  let r := s.biquad.process sample
  (⟨r.1⟩, r.2)

/-- src/filter/rbj/highpass.rs:60-62 -/
def HighPass.clear (s : HighPass T) : HighPass T := ⟨s.biquad.clear⟩

/-- src/filter/rbj/highpass.rs:64-66 -/
def HighPass.lastOut (s : HighPass T) : T := s.biquad.lastOut

instance : Processor (HighPass T) T where
  process _ s x := .ok (s.process x)
  clear := HighPass.clear
  lastOut := HighPass.lastOut

/-! ## BandPass1 -/

/-- src/filter/rbj/bandpass.rs:10-12 -/
structure BandPass1 (T : Type) where
  biquad : Biquad2 T

/-- src/filter/rbj/bandpass.rs:16-20 -/
def BandPass1.new : BandPass1 T := ⟨Biquad2.new⟩

/-- src/filter/rbj/bandpass.rs:28-55 -/
def BandPass1.setCoefficients (s : BandPass1 T) (sample_rate center_frequency q : T) : BandPass1 T :=
  let w0 := two *. pi *. center_frequency /. sample_rate
  let cos_w0 := cos w0
  let alpha := sin w0 /. (two *. q)
  let b0 := q *. alpha
  let b1 := zero
  let b2 := neg q *. alpha
  let a0 := one +. alpha
  let a1 := neg two *. cos_w0
  let a2 := one -. alpha
  ⟨rbjStore s.biquad b0 b1 b2 a0 a1 a2⟩

/-- src/filter/rbj/bandpass.rs:59-61 -/
def BandPass1.process (s : BandPass1 T) (sample : T) : BandPass1 T × T :=
  let r := s.biquad.process sample
  (⟨r.1⟩, r.2)

/-- src/filter/rbj/bandpass.rs:63-65 -/
def BandPass1.clear (s : BandPass1 T) : BandPass1 T := ⟨s.biquad.clear⟩

/-- src/filter/rbj/bandpass.rs:67-69 -/
def BandPass1.lastOut (s : BandPass1 T) : T := s.biquad.lastOut

instance : Processor (BandPass1 T) T where
  process _ s x := .ok (s.process x)
  clear := BandPass1.clear
  lastOut := BandPass1.lastOut

/-! ## BandPass2 -/

/-- src/filter/rbj/bandpass.rs:75-77 -/
structure BandPass2 (T : Type) where
  biquad : Biquad2 T

/-- src/filter/rbj/bandpass.rs:81-85 -/
def BandPass2.new : BandPass2 T := ⟨Biquad2.new⟩

/-- src/filter/rbj/bandpass.rs:93-120 -/
def BandPass2.setCoefficients (s : BandPass2 T) (sample_rate center_frequency q : T) : BandPass2 T :=
  let w0 := two *. pi *. center_frequency /. sample_rate
  let cos_w0 := cos w0
  let alpha := sin w0 /. (two *. q)
  let b0 := alpha
  let b1 := zero
  let b2 := neg alpha
  let a0 := one +. alpha
  let a1 := neg two *. cos_w0
  let a2 := one -. alpha
  ⟨rbjStore s.biquad b0 b1 b2 a0 a1 a2⟩

/-- src/filter/rbj/bandpass.rs:124-126 -/
def BandPass2.process (s : BandPass2 T) (sample : T) : BandPass2 T × T :=
  let r := s.biquad.process sample
  (⟨r.1⟩, r.2)

/-- src/filter/rbj/bandpass.rs:128-130 -/
def BandPass2.clear (s : BandPass2 T) : BandPass2 T := ⟨s.biquad.clear⟩

/-- src/filter/rbj/bandpass.rs:132-134 -/
def BandPass2.lastOut (s : BandPass2 T) : T := s.biquad.lastOut

instance : Processor (BandPass2 T) T where
  process _ s x := .ok (s.process x)
  clear := BandPass2.clear
  lastOut := BandPass2.lastOut

/-! ## BandStop -/

/-- src/filter/rbj/bandstop.rs:9-11 -/
structure BandStop (T : Type) where
  biquad : Biquad2 T

/-- src/filter/rbj/bandstop.rs:15-19 -/
def BandStop.new : BandStop T := ⟨Biquad2.new⟩

/-- src/filter/rbj/bandstop.rs:27-54 -/
def BandStop.setCoefficients (s : BandStop T) (sample_rate center_frequency q : T) : BandStop T :=
  let w0 := two *. pi *. center_frequency /. sample_rate
  let cos_w0 := cos w0
  let alpha := sin w0 /. (two *. q)
  let b0 := one
  let b1 := neg two *. cos_w0
  let b2 := one
  let a0 := one +. alpha
  let a1 := b1
  let a2 := one -. alpha
  ⟨rbjStore s.biquad b0 b1 b2 a0 a1 a2⟩

/-- src/filter/rbj/bandstop.rs:58-60 -/
def BandStop.process (s : BandStop T) (sample : T) : BandStop T × T :=
  let r := s.biquad.process sample
  (⟨r.1⟩, r.2)

/-- src/filter/rbj/bandstop.rs:62-64 -/
def BandStop.clear (s : BandStop T) : BandStop T := ⟨s.biquad.clear⟩

/-- src/filter/rbj/bandstop.rs:66-68 -/
def BandStop.lastOut (s : BandStop T) : T := s.biquad.lastOut

instance : Processor (BandStop T) T where
  process _ s x := .ok (s.process x)
  clear := BandStop.clear
  lastOut := BandStop.lastOut

/-! ## AllPass -/

/-- src/filter/rbj/allpass.rs:7-9 -/
structure AllPass (T : Type) where
  biquad : Biquad2 T

/-- src/filter/rbj/allpass.rs:13-17 -/
def AllPass.new : AllPass T := ⟨Biquad2.new⟩

/-- src/filter/rbj/allpass.rs:25-52 -/
def AllPass.setCoefficients (s : AllPass T) (sample_rate phase_frequency q : T) : AllPass T :=
  let w0 := two *. pi *. phase_frequency /. sample_rate
  let cos_w0 := cos w0
  let alpha := sin w0 /. (two *. q)
  let b0 := one -. alpha
  let b1 := neg two *. cos_w0
  let b2 := one +. alpha
  let a0 := b2
  let a1 := b1
  let a2 := b0
  ⟨rbjStore s.biquad b0 b1 b2 a0 a1 a2⟩

/-- src/filter/rbj/allpass.rs:56-58 -/
def AllPass.process (s : AllPass T) (sample : T) : AllPass T × T :=
  let r := s.biquad.process sample
  (⟨r.1⟩, r.2)

/-- src/filter/rbj/allpass.rs:60-62 -/
def AllPass.clear (s : AllPass T) : AllPass T := ⟨s.biquad.clear⟩

/-- src/filter/rbj/allpass.rs:64-66 -/
def AllPass.lastOut (s : AllPass T) : T := s.biquad.lastOut

instance : Processor (AllPass T) T where
  process _ s x := .ok (s.process x)
  clear := AllPass.clear
  lastOut := AllPass.lastOut

/-! ## Peak -/

/-- src/filter/rbj/peak.rs:8-10 -/
structure Peak (T : Type) where
  biquad : Biquad2 T

/-- src/filter/rbj/peak.rs:14-18 -/
def Peak.new : Peak T := ⟨Biquad2.new⟩

/-- src/filter/rbj/peak.rs:26-57 -/
def Peak.setCoefficients (s : Peak T) (sample_rate center_frequency db_gain q : T) : Peak T :=
  let ten := ofF64 (T := T) (.lit 10)
  let forty := ofF64 (T := T) (.lit 40)
  let a := powf ten (db_gain /. forty)
  let w0 := two *. pi *. center_frequency /. sample_rate
  let cos_w0 := cos w0
  let alpha := sin w0 /. (two *. q)
  let b0 := one +. alpha *. a
  let b1 := neg two *. cos_w0
  let b2 := one -. alpha *. a
  let a0 := one +. alpha /. a
  let a1 := b1
  let a2 := one -. alpha /. a
  ⟨rbjStore s.biquad b0 b1 b2 a0 a1 a2⟩

/-- src/filter/rbj/peak.rs:61-63 -/
def Peak.process (s : Peak T) (sample : T) : Peak T × T :=
  let r := s.biquad.process sample
  (⟨r.1⟩, r.2)

/-- src/filter/rbj/peak.rs:65-67 -/
def Peak.clear (s : Peak T) : Peak T := ⟨s.biquad.clear⟩

/-- src/filter/rbj/peak.rs:69-71 -/
def Peak.lastOut (s : Peak T) : T := s.biquad.lastOut

instance : Processor (Peak T) T where
  process _ s x := .ok (s.process x)
  clear := Peak.clear
  lastOut := Peak.lastOut

/-! ## LowShelf -/

/-- src/filter/rbj/lowshelf.rs:8-10 -/
structure LowShelf (T : Type) where
  biquad : Biquad2 T

/-- src/filter/rbj/lowshelf.rs:14-18 -/
def LowShelf.new : LowShelf T := ⟨Biquad2.new⟩

/-- src/filter/rbj/lowshelf.rs:26-62 -/
def LowShelf.setCoefficients (s : LowShelf T) (sample_rate cutoff_frequency db_gain shelf_slope : T) : LowShelf T :=
  let ten := ofF64 (T := T) (.lit 10)
  let forty := ofF64 (T := T) (.lit 40)
  let a := powf ten (db_gain /. forty)
  let w0 := two *. pi *. cutoff_frequency /. sample_rate
  let cos_w0 := cos w0
  let alpha := sin w0 /. two *. sqrt ((a +. one /. a) *. (one /. shelf_slope -. one) +. two)
  let a_plus_one := a +. one
  let a_subt_one := a -. one
  let sqrt_product := two *. sqrt a *. alpha
  let b0 := a *. (a_plus_one -. a_subt_one *. cos_w0 +. sqrt_product)
  let b1 := two *. a *. (a_subt_one -. a_plus_one *. cos_w0)
  let b2 := a *. (a_plus_one -. a_subt_one *. cos_w0 -. sqrt_product)
  let a0 := a_plus_one +. a_subt_one *. cos_w0 +. sqrt_product
  let a1 := neg two *. (a_subt_one +. a_plus_one *. cos_w0)
  let a2 := a_plus_one +. a_subt_one *. cos_w0 -. sqrt_product
  ⟨rbjStore s.biquad b0 b1 b2 a0 a1 a2⟩

/-- src/filter/rbj/lowshelf.rs:66-68 -/
def LowShelf.process (s : LowShelf T) (sample : T) : LowShelf T × T :=
  let r := s.biquad.process sample
  (⟨r.1⟩, r.2)

/-- src/filter/rbj/lowshelf.rs:70-72 -/
def LowShelf.clear (s : LowShelf T) : LowShelf T := ⟨s.biquad.clear⟩

/-- src/filter/rbj/lowshelf.rs:74-76 -/
def LowShelf.lastOut (s : LowShelf T) : T := s.biquad.lastOut

instance : Processor (LowShelf T) T where
  process _ s x := .ok (s.process x)
  clear := LowShelf.clear
  lastOut := LowShelf.lastOut

/-! ## HighShelf -/

/-- src/filter/rbj/highshelf.rs:8-10 -/
structure HighShelf (T : Type) where
  biquad : Biquad2 T

/-- src/filter/rbj/highshelf.rs:14-18 -/
def HighShelf.new : HighShelf T := ⟨Biquad2.new⟩

/-- src/filter/rbj/highshelf.rs:26-62 -/
def HighShelf.setCoefficients (s : HighShelf T) (sample_rate cutoff_frequency db_gain shelf_slope : T) : HighShelf T :=
  let ten := ofF64 (T := T) (.lit 10)
  let forty := ofF64 (T := T) (.lit 40)
  let a := powf ten (db_gain /. forty)
  let w0 := two *. pi *. cutoff_frequency /. sample_rate
  let cos_w0 := cos w0
  let alpha := sin w0 /. two *. sqrt ((a +. one /. a) *. (one /. shelf_slope -. one) +. two)
  let a_plus_one := a +. one
  let a_subt_one := a -. one
  let sqrt_product := two *. sqrt a *. alpha
  let b0 := a *. (a_plus_one +. a_subt_one *. cos_w0 +. sqrt_product)
  let b1 := neg two *. a *. (a_subt_one +. a_plus_one *. cos_w0)
  let b2 := a *. (a_plus_one +. a_subt_one *. cos_w0 -. sqrt_product)
  let a0 := a_plus_one -. a_subt_one *. cos_w0 +. sqrt_product
  let a1 := two *. (a_subt_one -. a_plus_one *. cos_w0)
  let a2 := a_plus_one -. a_subt_one *. cos_w0 -. sqrt_product
  ⟨rbjStore s.biquad b0 b1 b2 a0 a1 a2⟩

/-- src/filter/rbj/highshelf.rs:66-68 -/
def HighShelf.process (s : HighShelf T) (sample : T) : HighShelf T × T :=
  let r := s.biquad.process sample
  (⟨r.1⟩, r.2)

/-- src/filter/rbj/highshelf.rs:70-72 -/
def HighShelf.clear (s : HighShelf T) : HighShelf T := ⟨s.biquad.clear⟩

/-- src/filter/rbj/highshelf.rs:74-76 -/
def HighShelf.lastOut (s : HighShelf T) : T := s.biquad.lastOut

instance : Processor (HighShelf T) T where
  process _ s x := .ok (s.process x)
  clear := HighShelf.clear
  lastOut := HighShelf.lastOut

end Rasp
