import Verif.Model.Traits

/-!
# Model of src/window/*.rs

The six iterator types have the same fields and the same `new`, `next` and `len`; only `generate_window`
differs. They are modelled by one structure and a `WindowKind` tag (simplification: six copies of the same
text become one). `PhantomData` is dropped.
-/

namespace Rasp
open FloatOps

/-- Which of the six iterator types. -/
inductive WindowKind where
  | triangular | bartlett | hann | hamming | blackman | blackmanHarris
  deriving DecidableEq

/-- src/window/triangular.rs:8-12, bartlett.rs:8-12, hann.rs:8-12, hamming.rs:8-12, blackman.rs:10-14,
blackman_harris.rs:10-14 -/
structure WindowIter where
  index : ℕ
  size : ℕ

/-- src/window/triangular.rs:15-21, bartlett.rs:15-21, hann.rs:15-21, hamming.rs:15-21, blackman.rs:17-23,
blackman_harris.rs:17-23 -/
def WindowIter.new (size : ℕ) : WindowIter := { index := 0, size := size }

variable (T : Type) [FloatOps T]

/-- src/window/triangular.rs:23-35 -/
def triangularWindow [Target] (b : Build) (s : WindowIter) : Res T := do
  let index_float : T := ofUsize s.index
  let size_float : T := ofUsize s.size
  let m ← uSub b s.size 1
  let size_minus_one : T := ofUsize m
  let alpha := size_minus_one /. two
  let numerator := index_float -. alpha
  let denominator := size_float /. two
  .ok (one -. abs (numerator /. denominator))

/-- src/window/bartlett.rs:23-33 -/
def bartlettWindow [Target] (b : Build) (s : WindowIter) : Res T := do
  let index_float : T := ofUsize s.index
  let m ← uSub b s.size 1
  let size_minus_one : T := ofUsize m
  let alpha := size_minus_one /. two
  let numerator := index_float -. alpha
  .ok (one -. abs (numerator /. alpha))

/-- src/window/hann.rs:23-33 -/
def hannWindow [Target] (b : Build) (s : WindowIter) : Res T := do
  let half : T := ofF64 (.lit (1 / 2))
  let index_float : T := ofUsize s.index
  let m ← uSub b s.size 1
  let size_minus_one : T := ofUsize m
  let numerator := two *. pi *. index_float
  .ok (half *. (one -. cos (numerator /. size_minus_one)))

/-- src/window/hamming.rs:23-34 -/
def hammingWindow [Target] (b : Build) (s : WindowIter) : Res T := do
  let index_float : T := ofUsize s.index
  let m ← uSub b s.size 1
  let size_minus_one : T := ofUsize m
  let alpha : T := ofF64 (.lit (54 / 100))
  let beta := one -. alpha
  let numerator := two *. pi *. index_float
  .ok (alpha -. beta *. cos (numerator /. size_minus_one))

/-- src/window/blackman.rs:7 and 25-36 -/
def blackmanWindow [Target] (b : Build) (s : WindowIter) : Res T := do
  let index_float : T := ofUsize s.index
  let m ← uSub b s.size 1
  let size_minus_one : T := ofUsize m
  let theta := two *. pi *. index_float /. size_minus_one
  let a0 : T := ofF64 (.div (.sub (.lit 1) (.lit (16 / 100))) (.lit 2))
  let a1 : T := ofF64 (.lit (1 / 2))
  let a2 : T := ofF64 (.div (.lit (16 / 100)) (.lit 2))
  .ok (a0 -. a1 *. cos theta +. a2 *. cos (two *. theta))

/-- src/window/blackman_harris.rs:7 and 25-38 -/
def blackmanHarrisWindow [Target] (b : Build) (s : WindowIter) : Res T := do
  let three : T := ofF64 (.lit 3)
  let index_float : T := ofUsize s.index
  let m ← uSub b s.size 1
  let size_minus_one : T := ofUsize m
  let theta := two *. pi *. index_float /. size_minus_one
  let a0 : T := ofF64 (.lit (35875 / 100000))
  let a1 : T := ofF64 (.lit (48829 / 100000))
  let a2 : T := ofF64 (.lit (14128 / 100000))
  let a3 : T := ofF64 (.lit (1168 / 100000))
  .ok (a0 -. a1 *. cos theta +. a2 *. cos (two *. theta) -. a3 *. cos (three *. theta))

/-- `generate_window` of each iterator type (dispatch of the tag; the bodies are the six functions above). -/
def generateWindow [Target] (b : Build) : WindowKind → WindowIter → Res T
  | .triangular => triangularWindow T b
  | .bartlett => bartlettWindow T b
  | .hann => hannWindow T b
  | .hamming => hammingWindow T b
  | .blackman => blackmanWindow T b
  | .blackmanHarris => blackmanHarrisWindow T b

/-- src/window/triangular.rs:41-50, bartlett.rs:39-48, hann.rs:39-48, hamming.rs:40-49, blackman.rs:42-51,
blackman_harris.rs:44-53 -/
def WindowIter.next [Target] (b : Build) (k : WindowKind) (s : WindowIter) : Res (WindowIter × Option T) :=
  if s.index < s.size then do
    let window_sample ← generateWindow T b k s
    let i ← uAdd b s.index 1
    .ok ({ s with index := i }, some window_sample)
  else .ok (s, none)

/-- src/window/triangular.rs:54-56, bartlett.rs:52-54, hann.rs:52-54, hamming.rs:53-55, blackman.rs:55-57,
blackman_harris.rs:57-59: the whole size, whatever has been consumed. -/
def WindowIter.len (s : WindowIter) : ℕ := s.size

variable {T}

/-- The loop `for (sample, window_gain) in samples.iter_mut().zip(window)` (src/window/mod.rs:53-55, 59-61,
65-67, 71-73, 77-79, 83-85). `zip` advances the slice first, then the window, and stops at the first `None`. -/
def applyLoop [Target] (b : Build) (k : WindowKind) : WindowIter → List T → Res (List T)
  | _, [] => .ok []
  | it, x :: xs => do
    let (it', g) ← WindowIter.next T b k it
    match g with
    | none => .ok (x :: xs)
    | some gain =>
      let rest ← applyLoop b k it' xs
      .ok (gain *. x :: rest)

/-- src/window/mod.rs:26-41 `enum Window`; the non-rectangular variants are named by `WindowKind`. -/
inductive Window where
  | rectangular
  | shaped (k : WindowKind)

/-- src/window/mod.rs:48-88 -/
def applyWindow [Target] (b : Build) (samples : List T) : Window → Res (List T)
  | .rectangular => .ok samples
  | .shaped k => applyLoop b k (WindowIter.new samples.length) samples

end Rasp
