import Verif.Model.Windows

/-!
# Size hints of the window iterators and of the std adapters around them

The window iterators implement `Iterator::next` and `ExactSizeIterator::len` only; `size_hint` is the default of std. The
adapters are std's, modelled by their `size_hint` and by the default `ExactSizeIterator::len` they use.
-/

namespace Rasp

/-- What `size_hint` returns: a lower bound and possibly an upper bound on the number of items to come. -/
abbrev Hint : Type := ℕ × Option ℕ

/-- `size_hint` of the six window iterators: not overridden in src/window/hann.rs:36-49 (nor in the other five `impl
Iterator` blocks: bartlett.rs:36-49, blackman.rs:39-52, blackman_harris.rs:41-54, hamming.rs:37-50,
triangular.rs:38-51), so std's default `(0, None)`. -/
def WindowIter.sizeHint (_ : WindowIter) : Hint := (0, none)

/-- std's default `ExactSizeIterator::len` (used by `Zip`, `Take`, `Skip`, `Peekable`; overridden at
src/window/hann.rs:51-55 and in the five other files): `let (lower, upper) = self.size_hint(); assert_eq!(upper,
Some(lower)); lower`. -/
def Hint.len (h : Hint) : Res ℕ := if h.2 = some h.1 then .ok h.1 else .error .panic

/-- `size_hint` of a slice iterator with `k` items to come, as in src/window/mod.rs:56 `samples.iter_mut()`. -/
def Hint.slice (k : ℕ) : Hint := (k, some k)

/-- `size_hint` of `a.zip(b)`, as built in src/window/mod.rs:56. -/
def Hint.zip (a b : Hint) : Hint :=
  (min a.1 b.1, match a.2, b.2 with
    | some x, some y => some (min x y)
    | some x, none => some x
    | none, some y => some y
    | none, none => none)

/-- `size_hint` of `a.take(k)` (std; around the iterators of src/window). -/
def Hint.take (k : ℕ) (a : Hint) : Hint :=
  (min a.1 k, match a.2 with
    | some x => if x < k then some x else some k
    | none => some k)

/-- `size_hint` of `a.skip(k)` (std; around the iterators of src/window). -/
def Hint.skip (k : ℕ) (a : Hint) : Hint := (a.1 - k, a.2.map (· - k))

/-- `size_hint` of `a.peekable()` before anything is peeked (std; around the iterators of src/window). -/
def Hint.peekable (a : Hint) : Hint := a

/-- `len` of `a.map(f)`, `a.enumerate()`, `a.fuse()` and `a.by_ref()`: std forwards the call to the window iterator,
src/window/hann.rs:52-54. -/
def WindowIter.forwardedLen (s : WindowIter) : ℕ := s.len

end Rasp
