import Verif.Model.Traits

/-!
# Model of src/analysis/*.rs
-/

namespace Rasp
open FloatOps
variable {T : Type} [FloatOps T]

/-! ## LeakyIntegrator -/

/-- src/analysis/leaky_integrator.rs:13-18 -/
structure LeakyIntegrator (T : Type) where
  alpha : T
  y_z1 : T

/-- src/analysis/leaky_integrator.rs:37-42 -/
def LeakyIntegrator.new : LeakyIntegrator T := { alpha := zero, y_z1 := zero }

/-- src/analysis/leaky_integrator.rs:48-50 -/
def LeakyIntegrator.getAlpha (s : LeakyIntegrator T) : T := s.alpha

/-- src/analysis/leaky_integrator.rs:77-81: `if gain >= 0 && gain < 1` -/
def LeakyIntegrator.setAlpha (s : LeakyIntegrator T) (gain : T) : LeakyIntegrator T :=
  if le zero gain && lt gain one then { s with alpha := gain } else s

/-- src/analysis/leaky_integrator.rs:85-88 -/
def LeakyIntegrator.process (s : LeakyIntegrator T) (value : T) : LeakyIntegrator T × T :=
  let y := value +. s.alpha *. (s.y_z1 -. value)
  ({ s with y_z1 := y }, y)

/-- src/analysis/leaky_integrator.rs:90-92 -/
def LeakyIntegrator.clear (s : LeakyIntegrator T) : LeakyIntegrator T := { s with y_z1 := zero }

/-- src/analysis/leaky_integrator.rs:94-96 -/
def LeakyIntegrator.lastOut (s : LeakyIntegrator T) : T := s.y_z1

instance : Processor (LeakyIntegrator T) T where
  process _ s x := .ok (s.process x)
  clear := LeakyIntegrator.clear
  lastOut := LeakyIntegrator.lastOut

/-! ## PeakEnvDetector -/

/-- src/analysis/peak_detector.rs:9-15 -/
structure PeakEnvDetector (T : Type) where
  attack_gain : T
  release_gain : T
  envelope : T

/-- src/analysis/peak_detector.rs:37-43 -/
def PeakEnvDetector.new : PeakEnvDetector T := { attack_gain := zero, release_gain := zero, envelope := zero }

/-- src/analysis/peak_detector.rs:46-48 -/
def PeakEnvDetector.getAttackGain (s : PeakEnvDetector T) : T := s.attack_gain

/-- src/analysis/peak_detector.rs:72-76 -/
def PeakEnvDetector.setAttack (s : PeakEnvDetector T) (attack_length : T) : PeakEnvDetector T :=
  if lt zero attack_length && isFinite attack_length then
    { s with attack_gain := exp (neg one /. attack_length) }
  else s

/-- src/analysis/peak_detector.rs:79-81 -/
def PeakEnvDetector.getReleaseGain (s : PeakEnvDetector T) : T := s.release_gain

/-- src/analysis/peak_detector.rs:105-109 -/
def PeakEnvDetector.setRelease (s : PeakEnvDetector T) (release_length : T) : PeakEnvDetector T :=
  if lt zero release_length && isFinite release_length then
    { s with release_gain := exp (neg one /. release_length) }
  else s

/-- src/analysis/peak_detector.rs:113-127 -/
def PeakEnvDetector.process (s : PeakEnvDetector T) (sample : T) : PeakEnvDetector T × T :=
  let input_envelope := abs sample
  let alpha := if lt s.envelope input_envelope then s.attack_gain else s.release_gain
  let envelope := input_envelope +. alpha *. (s.envelope -. input_envelope)
  ({ s with envelope := envelope }, envelope)

/-- src/analysis/peak_detector.rs:129-131 -/
def PeakEnvDetector.clear (s : PeakEnvDetector T) : PeakEnvDetector T := { s with envelope := zero }

/-- src/analysis/peak_detector.rs:133-135 -/
def PeakEnvDetector.lastOut (s : PeakEnvDetector T) : T := s.envelope

instance : Processor (PeakEnvDetector T) T where
  process _ s x := .ok (s.process x)
  clear := PeakEnvDetector.clear
  lastOut := PeakEnvDetector.lastOut

/-! ## RmsEnvDetector -/

/-- src/analysis/rms_detector.rs:9-15 -/
structure RmsEnvDetector (T : Type) where
  attack_gain : T
  release_gain : T
  envelope : T

/-- src/analysis/rms_detector.rs:37-43 -/
def RmsEnvDetector.new : RmsEnvDetector T := { attack_gain := zero, release_gain := zero, envelope := zero }

/-- src/analysis/rms_detector.rs:46-48 -/
def RmsEnvDetector.getAttackGain (s : RmsEnvDetector T) : T := s.attack_gain

/-- src/analysis/rms_detector.rs:72-76 -/
def RmsEnvDetector.setAttack (s : RmsEnvDetector T) (attack_length : T) : RmsEnvDetector T :=
  if lt zero attack_length && isFinite attack_length then
    { s with attack_gain := exp (neg one /. attack_length) }
  else s

/-- src/analysis/rms_detector.rs:79-81 -/
def RmsEnvDetector.getReleaseGain (s : RmsEnvDetector T) : T := s.release_gain

/-- src/analysis/rms_detector.rs:105-109 -/
def RmsEnvDetector.setRelease (s : RmsEnvDetector T) (release_length : T) : RmsEnvDetector T :=
  if lt zero release_length && isFinite release_length then
    { s with release_gain := exp (neg one /. release_length) }
  else s

/-- src/analysis/rms_detector.rs:113-127 -/
def RmsEnvDetector.process (s : RmsEnvDetector T) (sample : T) : RmsEnvDetector T × T :=
  let input_envelope := sample *. sample
  let a1 := if lt s.envelope input_envelope then s.attack_gain else s.release_gain
  let envelope := input_envelope +. a1 *. (s.envelope -. input_envelope)
  ({ s with envelope := envelope }, sqrt envelope)

/-- src/analysis/rms_detector.rs:129-131 -/
def RmsEnvDetector.clear (s : RmsEnvDetector T) : RmsEnvDetector T := { s with envelope := zero }

/-- src/analysis/rms_detector.rs:133-135 -/
def RmsEnvDetector.lastOut (s : RmsEnvDetector T) : T := sqrt s.envelope

instance : Processor (RmsEnvDetector T) T where
  process _ s x := .ok (s.process x)
  clear := RmsEnvDetector.clear
  lastOut := RmsEnvDetector.lastOut

end Rasp
