import Verif.Spec.Feedback
import Verif.Spec.Diff

/-!
# Reverberators built from delay lines

Schroeder's reverberator: several comb loops next to each other, their outputs added, followed by all-pass loops one after the other. Nothing
of this is in the crate; it is what `Delay` is for, and every loop is the loop of `Verif.Spec.Feedback`.
-/

namespace Rasp
open FloatOps

/-- The settings of one loop: `Delay::new(d, m)` and the gain in the loop. -/
structure Echo (T : Type) where
  d : ℕ
  m : ℕ
  g : T

/-- After how many samples the loop repeats. -/
def Echo.period {T : Type} (e : Echo T) : ℕ := if min e.d e.m = 0 then e.m + 1 else min e.d e.m

variable {T : Type} [FloatOps T]

/-- `u` is what the loop `u = x + g v` makes of `x`, `v` being announced by a new `Delay`. -/
def CombLoop [Target] (b : Build) (e : Echo T) (x u : ℕ → T) : Prop :=
  ∃ s v r, Delay.new b e.d e.m = .ok s ∧ FeedbackLoop b Delay.announce (fun x v => x +. (e.g *. v)) s x u v r

/-- `y` is the output `v - g u` of the same loop. -/
def AllPassLoop [Target] (b : Build) (e : Echo T) (x y : ℕ → T) : Prop :=
  ∃ s u v r, Delay.new b e.d e.m = .ok s ∧ FeedbackLoop b Delay.announce (fun x v => x +. (e.g *. v)) s x u v r ∧ ∀ n, y n = v n -. (e.g *. u n)

/-- Comb loops with a common input, their outputs added from the last to the first. -/
inductive CombBank [Target] (b : Build) : List (Echo T) → (ℕ → T) → (ℕ → T) → Prop
  | nil (x : ℕ → T) : CombBank b [] x fun _ => zero
  | cons {e es} {x u y : ℕ → T} : CombLoop b e x u → CombBank b es x y → CombBank b (e :: es) x fun n => u n +. y n

/-- All-pass loops one after the other. -/
inductive AllPassChain [Target] (b : Build) : List (Echo T) → (ℕ → T) → (ℕ → T) → Prop
  | nil (x : ℕ → T) : AllPassChain b [] x x
  | cons {e es} {x u y : ℕ → T} : AllPassLoop b e x u → AllPassChain b es u y → AllPassChain b (e :: es) x y

/-- The reverberator. -/
def Reverberates [Target] (b : Build) (cs as : List (Echo T)) (x y : ℕ → T) : Prop :=
  ∃ w, CombBank b cs x w ∧ AllPassChain b as w y

/-- The same loop in exact arithmetic. -/
noncomputable def Echo.exact {f : Fmt} {L : Libm f} (e : Echo (Fl L)) : Echo ℝ := ⟨e.d, e.m, e.g.toReal⟩

end Rasp
