import Verif.Spec.SizeHint
import Verif.Props.Windows

/-! # C118: size hints of the window iterators -/

namespace Rasp
open FloatOps
variable {T : Type} [FloatOps T]

/-- **C118.** At every moment of the iteration the hint of a window iterator is sound but not exact: the contract of
`ExactSizeIterator` is broken, also before the first item and after the last. -/
theorem C118_hint_not_exact [Target] (b : Build) (k : WindowKind) (n : ℕ) (hn : n < usizeMod) (st : ℕ → WindowIter)
    (o : ℕ → Option T) (h0 : st 0 = WindowIter.new n)
    (hs : ∀ i, WindowIter.next T b k (st i) = .ok (st (i + 1), o i)) (m : ℕ) :
    (st m).sizeHint.Sound (Set.ncard {i | m ≤ i ∧ (o i).isSome = true}) ∧
    ¬ (st m).sizeHint.Exact (Set.ncard {i | m ≤ i ∧ (o i).isSome = true}) ∧ (st m).sizeHint.len = .error .panic ∧
    (st m).forwardedLen = n := by
  refine ⟨⟨Nat.zero_le _, ?_⟩, ?_, rfl, (C56_len b k n hn st o h0 hs m).1⟩
  · intro u hu; cases hu
  · intro h; cases (Prod.mk.inj h).2

/-- **C118.** So `len` of the adapters that rely on the hint panics, whatever the state of the window iterator: zipped with
a non-empty slice in either order (as `apply_window` zips them), limited to `k ≥ 1` items, with items skipped, made
peekable. -/
theorem C118_adapters_panic (s : WindowIter) {k : ℕ} (hk : 1 ≤ k) (j : ℕ) :
    (Hint.zip (.slice k) s.sizeHint).len = .error .panic ∧ (Hint.zip s.sizeHint (.slice k)).len = .error .panic ∧
    (Hint.take k s.sizeHint).len = .error .panic ∧ (Hint.skip j s.sizeHint).len = .error .panic ∧
    (Hint.peekable s.sizeHint).len = .error .panic := by
  have h : ¬ (k = 0) := by omega
  simp [Hint.zip, Hint.slice, Hint.take, Hint.skip, Hint.peekable, Hint.len, WindowIter.sizeHint, h]

/-- Only an empty slice or a limit of zero escapes. -/
theorem C118_adapters_empty (s : WindowIter) :
    (Hint.zip (.slice 0) s.sizeHint).len = .ok 0 ∧ (Hint.zip s.sizeHint (.slice 0)).len = .ok 0 ∧
    (Hint.take 0 s.sizeHint).len = .ok 0 := by
  simp [Hint.zip, Hint.slice, Hint.take, Hint.len, WindowIter.sizeHint]

/-- **C118.** The adapters are not to blame: around an iterator with an exact hint of `r` items their `len` is the number of
items they give. -/
theorem C118_exact_hint_would_do {h : Hint} {r : ℕ} (hr : h.Exact r) (k : ℕ) :
    h.len = .ok r ∧ (Hint.zip (.slice k) h).len = .ok (min k r) ∧ (Hint.zip h (.slice k)).len = .ok (min r k) ∧
    (Hint.take k h).len = .ok (min r k) ∧ (Hint.skip k h).len = .ok (r - k) ∧ (Hint.peekable h).len = .ok r := by
  unfold Hint.Exact at hr
  subst hr
  refine ⟨?_, ?_, ?_, ?_, ?_, ?_⟩ <;>
    simp [Hint.zip, Hint.slice, Hint.take, Hint.skip, Hint.peekable, Hint.len]
  split
  · rename_i h; simp [Nat.min_eq_left h.le]
  · rename_i h; simp [Nat.min_eq_right (Nat.not_lt.mp h)]

/-- A three-point window zipped with three samples. -/
example : (Hint.zip (.slice 3) (WindowIter.new 3).sizeHint).len = .error .panic :=
  (C118_adapters_panic _ (by norm_num) 0).1

end Rasp
