import Verif.Spec.Rounding
import Verif.Spec.Series

/-!
# Chains of processors in floating point
-/

namespace Rasp
variable {f : Fmt} {L : Libm f}

/-- Two processors, `s` in floating-point arithmetic and `r` in exact arithmetic. -/
structure Twin (L : Libm f) where
  σ : Type
  τ : Type
  [fl : Processor σ (Fl L)]
  [ex : Processor τ ℝ]
  s : σ
  r : τ

attribute [instance] Twin.fl Twin.ex

/-- These two processors in these states. -/
def twin {σ τ : Type} [Processor σ (Fl L)] [Processor τ ℝ] (s : σ) (r : τ) : Twin L := ⟨σ, τ, s, r⟩

/-- The floating-point stream `x` sent through the floating-point processors, one after the other, comes out as `z`. -/
def FlThrough (b : Build) : List (Twin L) → (ℕ → Fl L) → (ℕ → Fl L) → Prop
  | [], x, z => z = x
  | p :: ps, x, z => ∃ y, Responds b p.s x y ∧ FlThrough b ps y z

/-- The exact processors of the chain. -/
def exactStages (ps : List (Twin L)) : List Stage := ps.map fun p => stage p.r

/-- Fed the same finite samples of magnitude at most `X`, the outputs of `s` are finite and within `E` of those of `r`. -/
def Follows (b : Build) {σ τ : Type} [Processor σ (Fl L)] [Processor τ ℝ] (s : σ) (r : τ) (X E : ℝ) : Prop :=
  ∀ x : ℕ → Fl L, (∀ n, (x n).Within X) → ∃ y z, Responds b s x y ∧ Responds b r (fun n => (x n).toReal) z ∧
    ∀ n, (y n).Finite ∧ |(y n).toReal - z n| ≤ E

/-- Inputs that differ by at most `D` give outputs that differ by at most `G * D`, and silence gives silence. -/
def GainAtMost (b : Build) {τ : Type} [Processor τ ℝ] (r : τ) (G : ℝ) : Prop :=
  (∀ x : ℕ → ℝ, ∃ y, Responds b r x y) ∧ Responds b r (fun _ => (0 : ℝ)) (fun _ => 0) ∧
    ∀ (x x' y y' : ℕ → ℝ) (D : ℝ), Responds b r x y → Responds b r x' y' → (∀ n, |x n - x' n| ≤ D) → ∀ n, |y n - y' n| ≤ G * D

/-- Every stage has its own error `E` at the level it receives, and gain `G`: the level after it is `G * X + E`. -/
def Suits (b : Build) : List (Twin L × ℝ × ℝ) → ℝ → Prop
  | [], _ => True
  | (p, E, G) :: ps, X => Follows b p.s p.r X E ∧ GainAtMost b p.r G ∧ Suits b ps (G * X + E)

/-- An error `D` on entry, amplified by each gain and increased by each error. -/
def accumulated : List (ℝ × ℝ) → ℝ → ℝ
  | [], D => D
  | (E, G) :: l, D => accumulated l (G * D + E)

end Rasp
