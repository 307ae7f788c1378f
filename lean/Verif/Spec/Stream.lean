import Verif.Model.Traits

/-!
# Observing a processor

Relational descriptions of "calling `process` on one sample after the other". They mention only
`Processor.process`, not the block code.
-/

namespace Rasp
variable {σ T : Type} [Processor σ T]

/-- `Steps b s xs ys s'`: from state `s`, calling `process` on the samples `xs` in order returns `ys` in order
(no call panics) and leaves state `s'`. -/
inductive Steps (b : Build) : σ → List T → List T → σ → Prop
  | nil (s : σ) : Steps b s [] [] s
  | cons {s s' s'' : σ} {x y : T} {xs ys : List T} (h : Processor.process b s x = .ok (s', y))
      (t : Steps b s' xs ys s'') : Steps b s (x :: xs) (y :: ys) s''

/-- `Responds b s x y`: from state `s`, feeding the infinite stream `x` sample by sample returns the stream `y`. -/
def Responds (b : Build) (s : σ) (x y : ℕ → T) : Prop :=
  ∃ st : ℕ → σ, st 0 = s ∧ ∀ n, Processor.process b (st n) (x n) = .ok (st (n + 1), y n)

/-- `Blocks b s bs cs s'`: from state `s`, calling `process_block` on the blocks `bs` in order leaves the blocks
`cs` in place of them (no call panics) and state `s'`. -/
inductive Blocks (b : Build) : σ → List (List T) → List (List T) → σ → Prop
  | nil (s : σ) : Blocks b s [] [] s
  | cons {s s' s'' : σ} {xs ys : List T} {y : T} {bs cs : List (List T)}
      (h : processBlock b s xs = .ok (s', ys, y)) (t : Blocks b s' bs cs s'') :
      Blocks b s (xs :: bs) (ys :: cs) s''

/-- `process` never panics. -/
def NeverPanics (σ : Type) {T : Type} [Processor σ T] : Prop :=
  ∀ (b : Build) (s : σ) (x : T), ∃ s' y, Processor.process b s x = .ok (s', y)

/-- `last_out` after `process` is what `process` returned. -/
def ReportsLastOut (σ : Type) {T : Type} [Processor σ T] : Prop :=
  ∀ (b : Build) (s s' : σ) (x y : T), Processor.process b s x = .ok (s', y) → Processor.lastOut s' = y

/-- From state `s`, no stream makes `process` panic: every input stream has an output stream. -/
def Total (s : σ) : Prop := ∀ (b : Build) (x : ℕ → T), ∃ y, Responds b s x y

/-- States that no later stream of `process` calls can tell apart. -/
def SameFuture (s t : σ) : Prop :=
  ∀ (b : Build) (x y : ℕ → T), Responds b s x y ↔ Responds b t x y

end Rasp
