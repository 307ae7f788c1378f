import Verif.Spec.Analog
import Verif.Spec.Rbj

/-! # The analog filter in the limit of high sample rates, independent of the code -/

namespace Rasp

/-- A family of processors, one for each sample rate: at `F` Hz (`angle sr F` radians per sample) its response tends to `K` as the sample rate
grows. -/
def TendsToAnalog {σ : Type} [Processor σ ℝ] (mk : ℝ → σ) (F : ℝ) (K : ℂ) : Prop :=
  ∃ H : ℝ → ℂ, (∀ᶠ sr in Filter.atTop, SinusoidGain (mk sr) (angle sr F) (H sr)) ∧ Filter.Tendsto H Filter.atTop (nhds K)

/-- The point of the imaginary axis that stands for `F` Hz in an analog filter tuned to `f` Hz. -/
noncomputable def hertz (f F : ℝ) : ℂ := Complex.I * ((F / f : ℝ) : ℂ)

end Rasp
