import Verif.Spec.Windows

/-!
# Overlap-add processing of a signal

What a caller does with the windows of src/window/mod.rs: cut a signal into frames, one every `hop` samples, pass every frame
through `apply_window`, and add the results back where they came from.
-/

namespace Rasp
open FloatOps
variable {T : Type} [FloatOps T]

/-- Frame `j`: the `n` samples from time `j * hop` on. -/
def frameAt (x : ℕ → T) (hop n j : ℕ) : List T := (List.range n).map fun i => x (j * hop + i)

/-- `OverlapAdds pass n hop x z`: every frame of `x` goes through `pass` without a panic, and `z t` is what the frames leave
at time `t`, added to zero with the oldest frame first. -/
def OverlapAdds (pass : List T → Res (List T)) (n hop : ℕ) (x z : ℕ → T) : Prop :=
  ∃ Y : ℕ → List T, (∀ j, pass (frameAt x hop n j) = .ok (Y j)) ∧
    ∀ t, z t = ((List.range (t / hop + 1)).filterMap fun j => (Y j)[t - j * hop]?).foldl (fun s v => s +. v) zero

/-- A window applied once to every frame. -/
def windowOnce [Target] (b : Build) (k : WindowKind) (xs : List T) : Res (List T) := applyWindow b xs (.shaped k)

/-- A window applied before and after some processing of the frame (here: none). -/
def windowTwice [Target] (b : Build) (k : WindowKind) (xs : List T) : Res (List T) :=
  applyWindow b xs (.shaped k) >>= fun ys => applyWindow b ys (.shaped k)

/-- Overlap-add of the squares of a window. -/
noncomputable def overlapAddSq (o : ℕ → Option ℝ) (hop t : ℕ) : ℝ :=
  ((List.range (t / hop + 1)).map fun j => (o (t - j * hop)).getD 0 ^ 2).sum

end Rasp
