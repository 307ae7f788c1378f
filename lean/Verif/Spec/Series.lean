import Verif.Spec.Analog

/-!
# Chains of processors
-/

namespace Rasp
open Filter

/-- A processor of any type in some state. -/
structure Stage where
  σ : Type
  [proc : Processor σ ℝ]
  state : σ

attribute [instance] Stage.proc

/-- This processor in this state. -/
def stage {σ : Type} [Processor σ ℝ] (s : σ) : Stage := ⟨σ, s⟩

/-- `Through b ps x z`: the stream `x` sent through all of `ps`, one after the other, comes out as `z`. -/
def Through (b : Build) : List Stage → (ℕ → ℝ) → (ℕ → ℝ) → Prop
  | [], x, z => z = x
  | p :: ps, x, z => ∃ y, Responds b p.state x y ∧ Through b ps y z

/-- An input that dies away gives an output that dies away. -/
def Vanishes {σ : Type} [Processor σ ℝ] (s : σ) : Prop :=
  Total (T := ℝ) s ∧ ∀ (b : Build) (x y : ℕ → ℝ), Responds b s x y → Tendsto x atTop (nhds 0) → Tendsto y atTop (nhds 0)

/-- The stream ends up as a sinusoid. -/
def SettlesTo (x : ℕ → ℝ) (A w φ : ℝ) : Prop := Tendsto (fun n : ℕ => x n - A * Real.cos (w * n + φ)) atTop (nhds 0)

end Rasp
