/-
The crate's own tests (tests/lib.rs and the `#[cfg(test)]` modules under src/) transcribed onto the Lean model,
with Lean's hardware `Float32` for `f32`. Run with `python3 tools/conformance/run.py`.

This is a check of the *model* (did we transcribe the code rightly?), not a proof of anything. It is not part of
the Lake project. `@@LINEAR@@` is replaced by executable copies of `LinearDelay.setDelay`/`LinearDelay.new`,
taken verbatim from Verif/Model/LinearDelay.lean with the mathematical `whileLoop` replaced by `whileExec`.
-/
import Verif.Model.Delay
import Verif.Model.LinearDelay
import Verif.Model.Filters
import Verif.Model.Rbj
import Verif.Model.Analysis
import Verif.Model.Windows
import Verif.Model.Util

open Rasp FloatOps

instance : Target := ⟨true⟩

def Rasp.F64Const.evalF : F64Const → Float
  | .lit q => Float.ofInt q.num / Float.ofNat q.den
  | .sub a b => a.evalF - b.evalF
  | .div a b => a.evalF / b.evalF

instance : FloatOps Float32 where
  zero := 0
  one := 1
  two := 2
  pi := (3.14159265358979323846 : Float).toFloat32
  add := (· + ·)
  sub := (· - ·)
  mul := (· * ·)
  div := (· / ·)
  neg := fun x => -x
  abs := Float32.abs
  sqrt := Float32.sqrt
  exp := Float32.exp
  cos := Float32.cos
  sin := Float32.sin
  log10 := Float32.log10
  powf := Float32.pow
  lt := fun x y => decide (x < y)
  le := fun x y => decide (x ≤ y)
  isFinite := Float32.isFinite
  isSignNegative := fun x => x.toBits.toNat ≥ 2 ^ 31
  ofUsize := Float32.ofNat
  ofF64 := fun c => c.evalF.toFloat32
  size := 4
  size_pos := by decide

instance : DelayTime Float32 Float32 where
  toUsize x := x.toUSize.toNat
  castTo x := x

partial def whileExec {α : Type} (cond : α → Bool) (body : α → α) (x : α) : Res α :=
  if cond x then whileExec cond body (body x) else .ok x

namespace Exec
variable {D T : Type} [FloatOps D] [FloatOps T] [DelayTime D T]
@@LINEAR@@
end Exec

abbrev F := Float32
def dbg : Build := ⟨true⟩
def rel : Build := ⟨false⟩
/-- `std::f32::EPSILON` -/
def eps : F := (1 : F) / 8388608

/-! ## Harness -/

abbrev M := StateT (Nat × List String) IO

def check (name : String) (b : Bool) : M Unit := modify fun (n, l) => (n + 1, if b then l else name :: l)

def lt' (x y : F) : Bool := decide (x < y)
def le' (x y : F) : Bool := decide (x ≤ y)
/-- `assert!((a - b).abs() < EPSILON)` -/
def near (name : String) (a b : F) (e : F := eps) : M Unit := check name (lt' (a - b).abs e)
/-- `assert!((a - b).abs() <= EPSILON)` -/
def near' (name : String) (a b : F) (e : F := eps) : M Unit := check name (le' (a - b).abs e)
/-- `assert_eq!(a, b)` on floats -/
def same (name : String) (a b : F) : M Unit := check name (a == b)

/-- Unwrap a result that must not panic. -/
def ok {α : Type} [Inhabited α] (name : String) : Res α → M α
  | .ok x => pure x
  | .error _ => do check (name ++ ": PANIC") false; pure default

/-- Must panic. -/
def panics {α : Type} (name : String) : Res α → M Unit
  | .ok _ => check (name ++ ": did not panic") false
  | .error e => check name (e == .panic)

instance : Inhabited (Delay F) := ⟨⟨[0], 0, 0, 0, 0⟩⟩
instance : Inhabited (LinearDelay F F) := ⟨⟨[0], 0, 0, 0, 0, true, 0, 0, 0⟩⟩

/-- Feed `xs` through a processor, compare with `es`. -/
def feed {σ : Type} [Processor σ F] [Inhabited σ] (name : String) (s : σ) (xs es : List F)
    (cmp : String → F → F → M Unit := fun n a b => near n a b) : M σ := do
  let mut s := s
  for (x, e) in xs.zip es do
    let r ← ok name (Processor.process rel s x)
    s := r.1
    cmp name r.2 e
  return s

/-- `process_block`: output slice and returned value. -/
def block {σ : Type} [Processor σ F] [Inhabited σ] (name : String) (s : σ) (xs es : List F)
    (cmp : String → F → F → M Unit := fun n a b => near n a b) : M σ := do
  let r ← ok name (processBlock dbg s xs)
  check name (r.2.1.length == es.length)
  for (y, e) in r.2.1.zip es do cmp name y e
  cmp name r.2.2 (es.getLast?.getD 0)
  return r.1

/-! ## tests/lib.rs -/

instance : Inhabited (LeakyIntegrator F) := ⟨.new⟩
instance : Inhabited (PeakEnvDetector F) := ⟨.new⟩
instance : Inhabited (RmsEnvDetector F) := ⟨.new⟩
instance : Inhabited (OnePole F) := ⟨.new⟩
instance : Inhabited (OneZero F) := ⟨.new⟩
instance : Inhabited (TwoPole F) := ⟨.new⟩
instance : Inhabited (TwoZero F) := ⟨.new⟩
instance : Inhabited (Biquad1 F) := ⟨.new⟩
instance : Inhabited (Biquad2 F) := ⟨.new⟩
instance : Inhabited (LowPass F) := ⟨.new⟩
instance : Inhabited (HighPass F) := ⟨.new⟩

def tests_lib : M Unit := do
  let _ ← feed "api leaky" (LeakyIntegrator.new : LeakyIntegrator F) [1] [1]
  let _ ← feed "api peak" (PeakEnvDetector.new : PeakEnvDetector F) [1] [1]
  let _ ← feed "api rms" (RmsEnvDetector.new : RmsEnvDetector F) [1] [1]
  let _ ← feed "api one_pole" (OnePole.new : OnePole F) [1] [1]
  let _ ← feed "api one_zero" (OneZero.new : OneZero F) [1] [1]
  let _ ← feed "api two_pole" (TwoPole.new : TwoPole F) [1] [1]
  let _ ← feed "api two_zero" (TwoZero.new : TwoZero F) [1] [1]
  let _ ← feed "api biquad1" (Biquad1.new : Biquad1 F) [1] [1]
  let _ ← feed "api biquad2" (Biquad2.new : Biquad2 F) [1] [1]
  let x : F := 0.1
  check "api lowpass" ((((LowPass.new : LowPass F).setCoefficients 44100 12000 0.71).process x).2 != x)
  check "api highpass" ((((HighPass.new : HighPass F).setCoefficients 44100 12000 0.71).process x).2 != x)
  check "api bandpass1" ((((BandPass1.new : BandPass1 F).setCoefficients 44100 12000 0.71).process x).2 != x)
  check "api bandpass2" ((((BandPass2.new : BandPass2 F).setCoefficients 44100 12000 0.71).process x).2 != x)
  check "api bandstop" ((((BandStop.new : BandStop F).setCoefficients 44100 12000 0.71).process x).2 != x)
  check "api allpass" ((((AllPass.new : AllPass F).setCoefficients 44100 12000 0.71).process x).2 != x)
  check "api peak" ((((Peak.new : Peak F).setCoefficients 44100 12000 3 0.71).process x).2 != x)
  check "api lowshelf" ((((LowShelf.new : LowShelf F).setCoefficients 44100 12000 3 0.71).process x).2 != x)
  check "api highshelf" ((((HighShelf.new : HighShelf F).setCoefficients 44100 12000 3 0.71).process x).2 != x)
  let d ← ok "api delay" (Delay.new (T := F) dbg 1 4)
  let _ ← feed "api delay" d [1, 0] [0, 1]
  let d ← ok "api linear_delay" (Exec.newX (D := F) (T := F) dbg 1 4)
  let _ ← feed "api linear_delay" d [1, 0] [0, 1]
  near "api util" (← ok "api util" (toDb dbg (0 : F))) (-120)
  near "api util" (toSample (-120 : F)) 0

/-! ## src/analysis/*.rs -/

def inf : F := 1 / 0
def nan : F := 0 / 0

def tests_analysis : M Unit := do
  let i : LeakyIntegrator F := .new
  near "leaky new" i.lastOut 0
  near "leaky new" i.getAlpha 0
  let i := i.setAlpha 0.5
  near "leaky gain" i.getAlpha 0.5
  let (i, y) := i.process 1
  near "leaky memory" y 0.5
  near "leaky memory" i.lastOut 0.5
  let i := i.clear
  near "leaky memory" i.lastOut 0
  let _ ← feed "leaky process" i [1, 1, 1, 1, 1] [0.5, 0.75, 0.875, 0.9375, 0.96875]
  -- peak
  let d : PeakEnvDetector F := .new
  near "peak new" d.lastOut 0
  near "peak new" d.getAttackGain 0
  near "peak new" d.getReleaseGain 0
  let attack : F := 0.02 * 44100
  let release : F := 0.2 * 44100
  let mut d := (d.setAttack attack).setRelease release
  for v in [1, 0, inf, nan] do
    if v != 1 then d := (d.setAttack v).setRelease v
    near "peak attack" d.getAttackGain (-1 / attack : F).exp
    near "peak release" d.getReleaseGain (-1 / release : F).exp
  let (d', y) := d.process 1
  near "peak memory" d'.lastOut y
  near "peak memory" d'.clear.lastOut 0
  -- rms
  let e : RmsEnvDetector F := .new
  near "rms new" e.lastOut 0
  near "rms new" e.getAttackGain 0
  near "rms new" e.getReleaseGain 0
  let mut e := (e.setAttack attack).setRelease release
  for v in [1, 0, inf, nan] do
    if v != 1 then e := (e.setAttack v).setRelease v
    near "rms attack" e.getAttackGain (-1 / attack : F).exp
    near "rms release" e.getReleaseGain (-1 / release : F).exp
  let (e', y) := e.process 1
  near "rms memory" e'.lastOut y
  near "rms memory" e'.clear.lastOut 0

/-! ## src/delay/*.rs -/

def tests_delay : M Unit := do
  let d1 ← ok "delay new" (Delay.new (T := F) dbg 0 4095)
  let d2 ← ok "delay new" (Delay.new (T := F) dbg 4 4095)
  near "delay new" (← ok "delay new" d1.nextOut) 0
  near "delay new" (← ok "delay new" d2.nextOut) 0
  check "delay new" (d1.getDelay != d2.getDelay)
  check "delay new" ((← ok "" (d1.getMaxDelay dbg)) == (← ok "" (d2.getMaxDelay dbg)))
  let d1 ← ok "delay new" (d1.setDelay dbg 4)
  check "delay new" (d1.getDelay == d2.getDelay)
  let d ← ok "delay new_beyond_bounds" (Delay.new (T := F) dbg 2000 1000)
  check "delay new_beyond_bounds" (d.getDelay == (← ok "" (d.getMaxDelay dbg)))
  let d ← ok "delay set_delay" (Delay.new (T := F) dbg 500 1000)
  check "delay set_delay" ((← ok "" (d.setDelay dbg 2000)).getDelay == 1000)
  let d ← ok "delay process" (Delay.new (T := F) dbg 4 4095)
  let _ ← feed "delay process" d [1, 0, 0, 0, 0] [0, 0, 0, 0, 1]
  let d ← ok "delay clear" (Delay.new (T := F) dbg 380 4095)
  let xs := (List.range 380).map Float32.ofNat
  let d ← feed "delay clear" d xs (xs.map fun _ => 0)
  let d := d.clear
  let _ ← feed "delay clear" d xs (xs.map fun _ => 0)
  let input : List F := [0, 0.25, 0.5, 0.75]
  let mut d ← ok "delay tap_out" (Delay.new (T := F) dbg 4 4095)
  for x in input do
    let r ← ok "delay tap_out" (d.process dbg x)
    d := r.1
    near "delay tap_out" x (← ok "delay tap_out" (d.tapOut dbg 0))
  for (e, i) in input.reverse.zipIdx do
    near "delay tap_out" e (← ok "delay tap_out" (d.tapOut dbg i))
  let mut e ← ok "delay tap_in" (Delay.new (T := F) dbg 4 4095)
  for (x, i) in input.zipIdx do e ← ok "delay tap_in" (e.tapIn dbg x i)
  let _ ← feed "delay tap_in" e [0, 0, 0, 0] input.reverse
  let mut g ← ok "delay add_to" (Delay.new (T := F) dbg 4 4095)
  for (x, i) in input.zipIdx do
    let r ← ok "delay add_to" (g.addTo dbg x i)
    g := r.1
  let _ ← feed "delay add_to" g [0, 0, 0, 0] input.reverse

def tests_linear_delay : M Unit := do
  let d1 ← ok "linear new" (Exec.newX (D := F) (T := F) dbg 0 4095)
  let d2 ← ok "linear new" (Exec.newX (D := F) (T := F) dbg 0.5 4095)
  let (d1, y) ← ok "linear new" (d1.nextOut dbg)
  same "linear new" y 0
  let (d2, y) ← ok "linear new" (d2.nextOut dbg)
  same "linear new" y 0
  near "linear new" d1.getDelay 0
  near "linear new" d2.getDelay 0.5
  check "linear new" ((← ok "" (d1.getMaxDelay dbg)) == (← ok "" (d2.getMaxDelay dbg)))
  let d1 ← ok "linear new" (Exec.setDelayX dbg d1 2.65)
  near "linear new" d1.getDelay 2.65
  let d ← ok "linear new_beyond_bounds" (Exec.newX (D := F) (T := F) dbg 2000 1000)
  near "linear new_beyond_bounds" d.getDelay 1000
  let d ← ok "linear new_beyond_bounds" (Exec.newX (D := F) (T := F) dbg (-2000) 1000)
  near "linear new_beyond_bounds" d.getDelay 0
  let d ← ok "linear set_delay" (Exec.newX (D := F) (T := F) dbg 500 1000)
  let d ← ok "linear set_delay" (Exec.setDelayX dbg d 2000)
  near "linear set_delay" d.getDelay 1000
  let d ← ok "linear set_delay" (Exec.setDelayX dbg d (-2000))
  near "linear set_delay" d.getDelay 0
  let d ← ok "linear process" (Exec.newX (D := F) (T := F) dbg 4 4095)
  let _ ← feed "linear process" d [1, 0, 0, 0, 0] [0, 0, 0, 0, 1]
  let d ← ok "linear process" (Exec.newX (D := F) (T := F) dbg 2.5 4095)
  let _ ← feed "linear process" d [1, 0, 0, 0, 0] [0, 0, 0.5, 0.5, 0]
  let input : List F := [0, 0.25, 0.5, 0.75]
  let mut d ← ok "linear tap_out" (Exec.newX (D := F) (T := F) dbg 4 4095)
  for x in input do
    let r ← ok "linear tap_out" (d.process dbg x)
    d := r.1
    same "linear tap_out" x (← ok "linear tap_out" (d.tapOut dbg 0))
  for (e, i) in input.reverse.zipIdx do
    same "linear tap_out" e (← ok "linear tap_out" (d.tapOut dbg i))
  let mut e ← ok "linear tap_in" (Exec.newX (D := F) (T := F) dbg 4 4095)
  for (x, i) in input.zipIdx do e ← ok "linear tap_in" (e.tapIn dbg x i)
  let _ ← feed "linear tap_in" e [0, 0, 0, 0] input.reverse (cmp := same)

/-! ## src/filter/*.rs -/

def stdIn : List F := [0.55, -0.55, 0.55, -0.55, 0.25]

/-- The shape shared by the `process` and `process_block` tests of the basic filters. -/
def filterTests {σ : Type} [Processor σ F] [Inhabited σ] (name : String) (new : σ) (set : σ → σ)
    (input expected : List F) (cmp : String → F → F → M Unit := fun n a b => near n a b) : M Unit := do
  let s ← feed (name ++ " process") new input input cmp
  let _ ← feed (name ++ " process") (set (Processor.clear s)) input expected cmp
  let s ← block (name ++ " process_block") new input input cmp
  let _ ← block (name ++ " process_block") (set (Processor.clear s)) input expected cmp
  panics (name ++ " empty block") (processBlock dbg s ([] : List F))

def tests_filter : M Unit := do
  let bq : List F := [0.275, -0.11, 0.2145, -0.2519, 0.09893]
  filterTests "biquad1" (Biquad1.new : Biquad1 F) (·.setCoefficients 0.5 0.4 0.3 0.2 0.1) stdIn bq
  filterTests "biquad2" (Biquad2.new : Biquad2 F) (·.setCoefficients 0.5 0.4 0.3 0.2 0.1) stdIn bq
  filterTests "one_pole" (OnePole.new : OnePole F) (·.setCoefficients 0.5 0.1) stdIn
    [0.275, -0.3025, 0.30525, -0.305525, 0.1555525]
  filterTests "one_zero" (OneZero.new : OneZero F) (·.setCoefficients (-0.3) 0.8) stdIn
    [-0.165, 0.605, -0.605, 0.605, -0.515]
  filterTests "two_pole" (TwoPole.new : TwoPole F) (·.setCoefficients 0.9 0.2 (-1.3)) (stdIn.take 4)
    [0.495, -0.594, 1.2573, -1.51866] (fun n a b => near' n a b)
  filterTests "two_zero" (TwoZero.new : TwoZero F) (·.setCoefficients 0.9 (-0.2) 1.3) stdIn
    [0.495, -0.605, 1.32, -1.32, 1.05] (fun n a b => near' n a b)

def tests_rbj : M Unit := do
  let hp := (HighPass.new : HighPass F).setCoefficients 44100 1200 1
  near' "highpass b0" 0.914881372392 hp.biquad.b0
  near' "highpass b1" (-1.829762744784) hp.biquad.b1
  near' "highpass b2" 0.914881372392 hp.biquad.b2
  near' "highpass a1" (-1.816325839012) hp.biquad.a1
  near' "highpass a2" 0.843199650555 hp.biquad.a2
  let lp := (LowPass.new : LowPass F).setCoefficients 44100 1200 1
  near' "lowpass b0" 0.006718452886 lp.biquad.b0
  near' "lowpass b1" 0.013436905772 lp.biquad.b1
  near' "lowpass b2" 0.006718452886 lp.biquad.b2
  near' "lowpass a1" (-1.816325839012) lp.biquad.a1
  near' "lowpass a2" 0.843199650555 lp.biquad.a2
  let input : List F := [0.5, 0.4, 0.3, 0.2, 0.1]
  let f ← feed "highpass pass-through" (HighPass.new : HighPass F) input input (fun n a b => near' n a b)
  let _ ← feed "highpass process" (f.clear.setCoefficients 44100 8000 0.71) input
    [0.216146415734, -0.149242684917, -0.123518332014, -0.030156347137, 0.011764215888]
    (fun n a b => near' n a b)
  let f ← feed "lowpass pass-through" (LowPass.new : LowPass F) input input (fun n a b => near' n a b)
  let _ ← feed "lowpass process" (f.clear.setCoefficients 44100 8000 0.71) input
    [0.088763995825, 0.293767078666, 0.414231561951, 0.359573380268, 0.234253200384]
    (fun n a b => near' n a b)

/-! ## src/util/mod.rs -/

def tests_util : M Unit := do
  for (x, e) in ([(0, -120), (0.000000999, -120), (0.0000001, -120), (1e-1, -20), (1e-2, -40), (1e-3, -60),
      (1e-4, -80), (1e-5, -100), (1e-6, -120)] : List (F × F)) do
    near s!"to_db {x}" (← ok "to_db" (toDb dbg x)) e
  -- `#[should_panic]`: one of the three must panic in a debug build
  panics "to_db(-inf)" (toDb dbg (-inf))
  for (x, e) in ([(-1000, 0), (-120.000001, 0), (-120, 0), (-20, 1e-1), (-40, 1e-2), (-60, 1e-3), (-80, 1e-4),
      (-100, 1e-5), (nan, 0), (inf, 0), (-inf, 0)] : List (F × F)) do
    near s!"to_sample {x}" (toSample x) e

/-! ## src/window/*.rs -/

def tests_window : M Unit := do
  let m : F := -1.3878e-17
  let cases : List (WindowKind × List (List F)) := [
    (.triangular, [[0.3333333, 1, 0.3333333], [0.2, 0.6, 1, 0.6, 0.2],
      [0.166667, 0.5, 0.833333, 0.833333, 0.5, 0.166667],
      [0.142857, 0.428571, 0.714286, 1, 0.714286, 0.428571, 0.142857]]),
    (.bartlett, [[0, 1, 0], [0, 0.5, 1, 0.5, 0], [0, 0.4, 0.8, 0.8, 0.4, 0],
      [0, 0.333333, 0.666666, 1, 0.6666666, 0.333333, 0]]),
    (.hann, [[0, 1, 0], [0, 0.5, 1, 0.5, 0], [0, 0.345492, 0.904508, 0.904508, 0.345492, 0],
      [0, 0.25, 0.75, 1, 0.75, 0.25, 0]]),
    (.hamming, [[0.08, 1, 0.08], [0.08, 0.54, 1, 0.54, 0.08],
      [0.08, 0.397852, 0.912148, 0.912148, 0.397852, 0.08],
      [0.08, 0.31, 0.77, 1, 0.77, 0.31, 0.08]]),
    (.blackman, [[m, 1, m], [m, 3.4e-1, 1, 3.4e-1, m], [m, 2.0077e-1, 8.4923e-1, 8.4923e-1, 2.0077e-1, m],
      [m, 1.3e-1, 6.3e-1, 1, 6.3e-1, 1.3e-1, m]]),
    (.blackmanHarris, [[6e-5, 1, 6e-5], [6e-5, 0.21747, 1, 0.21747, 6e-5],
      [6e-5, 0.103011, 0.793834, 0.793834, 0.103011, 6e-5],
      [6e-5, 0.055645, 0.520575, 1, 0.520575, 0.055645, 6e-5]])]
  for (k, results) in cases do
    for e in results do
      let n := e.length
      check "window len" ((WindowIter.new n).len == n)
      let mut it := WindowIter.new n
      for v in e do
        match WindowIter.next F dbg k it with
        | .ok (it', some y) =>
          it := it'
          near s!"window next {n}" v y 1e-6
        | _ => check s!"window next {n}" false
      match WindowIter.next F dbg k it with
      | .ok (_, none) => check "window end" true
      | _ => check "window end" false
      let ys ← ok "apply_window" (applyWindow dbg (List.replicate n (1 : F)) (.shaped k))
      check "apply_window length" (ys.length == n)
      for (v, y) in e.zip ys do near s!"apply_window {n}" v y 1e-6
  for n in [3, 5, 6, 7] do
    let ys ← ok "rectangular" (applyWindow dbg (List.replicate n (1 : F)) .rectangular)
    check "rectangular" (ys == List.replicate n 1)

/-! ## Findings (not tests of the crate; the behaviours refuted or characterised by the theorems) -/

def findings : M Unit := do
  -- C05
  let z := ((OneZero.new : OneZero F).process 1).1.clear
  check "C05 OneZero keeps its output" (z.lastOut == 1)
  -- C12
  let d ← ok "C12" (Delay.new (T := F) dbg 0 1)
  check "C12 next_out at delay 0" ((← ok "" d.nextOut) == 0 && (← ok "" (d.process dbg 1)).2 == 1)
  -- C18
  let d ← ok "C18" (Delay.new (T := F) dbg 1 2)
  let d ← ok "C18" (d.setMaxDelay dbg 4)
  let _ ← feed "C18 fresh growth" d [1, 2, 3, 4, 5] [0, 0, 0, 1, 2]
  -- C25
  let d ← ok "C25" (Exec.newX (D := F) (T := F) dbg 1e-10 4095)
  check "C25 weights" (d.alpha == 4096 && d.om_alpha == -4095)
  -- C59
  match WindowIter.next F dbg .blackman (WindowIter.new 8) with
  | .ok (_, some y) => check "C59 first Blackman value negative" (lt' y 0)
  | _ => check "C59" false
  -- C62
  let ys ← ok "C62" (applyWindow dbg ([1] : List F) (.shaped .hann))
  check "C62 one-sample Hann" ((ys.headD 0).isNaN)

def main : IO Unit := do
  let go : M Unit := do
    tests_lib; tests_analysis; tests_delay; tests_linear_delay; tests_filter; tests_rbj; tests_util
    tests_window; findings
  let (_, n, bad) ← go.run (0, [])
  IO.println s!"{n} assertions, {bad.length} failed"
  for b in bad.reverse do IO.println s!"FAILED {b}"

#eval main
