import Verif.Spec.Windows

/-! # Window iterators: closed form -/

namespace Rasp
open FloatOps
variable {T : Type} [FloatOps T]

/-- `generate_window` without the subtraction check. -/
def windowVal (T : Type) [FloatOps T] (k : WindowKind) (n i : ℕ) : T :=
  let m : T := ofUsize (n - 1)
  let j : T := ofUsize i
  match k with
  | .triangular => one -. abs ((j -. m /. two) /. ((ofUsize n : T) /. two))
  | .bartlett => one -. abs ((j -. m /. two) /. (m /. two))
  | .hann => (ofF64 (.lit (1 / 2))) *. (one -. cos (two *. pi *. j /. m))
  | .hamming => (ofF64 (.lit (54 / 100))) -. (one -. ofF64 (.lit (54 / 100))) *. cos (two *. pi *. j /. m)
  | .blackman =>
    let theta := two *. pi *. j /. m
    ofF64 (.div (.sub (.lit 1) (.lit (16 / 100))) (.lit 2)) -. ofF64 (.lit (1 / 2)) *. cos theta
      +. ofF64 (.div (.lit (16 / 100)) (.lit 2)) *. cos (two *. theta)
  | .blackmanHarris =>
    let theta := two *. pi *. j /. m
    ofF64 (.lit (35875 / 100000)) -. ofF64 (.lit (48829 / 100000)) *. cos theta
      +. ofF64 (.lit (14128 / 100000)) *. cos (two *. theta)
      -. ofF64 (.lit (1168 / 100000)) *. cos (ofF64 (.lit 3) *. theta)

theorem generateWindow_eq [Target] (b : Build) (k : WindowKind) (s : WindowIter) (h : 1 ≤ s.size) :
    generateWindow T b k s = .ok (windowVal T k s.size s.index) := by
  have hs : uSub b s.size 1 = .ok (s.size - 1) := by unfold uSub; rw [if_pos h]
  cases k <;> simp only [generateWindow, triangularWindow, bartlettWindow, hannWindow, hammingWindow, blackmanWindow,
    blackmanHarrisWindow, hs, windowVal] <;> rfl

theorem next_lt [Target] (b : Build) (k : WindowKind) (s : WindowIter) (h : s.index < s.size) (hs : s.size < usizeMod) :
    WindowIter.next T b k s = .ok ({ s with index := s.index + 1 }, some (windowVal T k s.size s.index)) := by
  unfold WindowIter.next
  rw [if_pos h, generateWindow_eq b k s (by omega)]
  have : uAdd b s.index 1 = .ok (s.index + 1) := by unfold uAdd; rw [if_pos (by omega)]
  rw [this]
  rfl

theorem next_ge [Target] (b : Build) (k : WindowKind) (s : WindowIter) (h : s.size ≤ s.index) :
    WindowIter.next T b k s = .ok (s, none) := by
  unfold WindowIter.next
  rw [if_neg (by omega)]

/-- The state after `i` calls of `next`. -/
theorem yields_state [Target] {b : Build} {k : WindowKind} {n : ℕ} (hn : n < usizeMod) {st : ℕ → WindowIter}
    {o : ℕ → Option T} (h0 : st 0 = WindowIter.new n)
    (hs : ∀ i, WindowIter.next T b k (st i) = .ok (st (i + 1), o i)) (i : ℕ) : st i = ⟨min i n, n⟩ := by
  induction i with
  | zero => rw [h0]; simp [WindowIter.new]
  | succ i ih =>
    have h := hs i
    rw [ih] at h
    by_cases hi : i < n
    · rw [next_lt b k _ (by simpa using hi) hn] at h
      rw [← (Prod.mk.inj (Except.ok.inj h)).1]
      simp only [WindowIter.mk.injEq, and_true]; omega
    · rw [next_ge b k _ (by simpa using hi)] at h
      rw [← (Prod.mk.inj (Except.ok.inj h)).1]
      simp only [WindowIter.mk.injEq, and_true]; omega

theorem yields_iff [Target] (b : Build) (k : WindowKind) {n : ℕ} (hn : n < usizeMod) (o : ℕ → Option T) :
    Yields b k n o ↔ ∀ i, o i = if i < n then some (windowVal T k n i) else none := by
  constructor
  · rintro ⟨st, h0, hs⟩ i
    have h := hs i
    rw [yields_state hn h0 hs i] at h
    by_cases hi : i < n
    · rw [next_lt b k _ (by simpa using hi) hn] at h
      rw [← (Prod.mk.inj (Except.ok.inj h)).2, if_pos hi]
      simp [min_eq_left hi.le]
    · rw [next_ge b k _ (by simpa using hi)] at h
      rw [← (Prod.mk.inj (Except.ok.inj h)).2, if_neg hi]
  · intro h
    refine ⟨fun i => ⟨min i n, n⟩, by simp [WindowIter.new], fun i => ?_⟩
    rw [h i]
    by_cases hi : i < n
    · rw [next_lt b k _ (by simpa using hi) hn, if_pos hi]
      simp only [min_eq_left hi.le, Except.ok.injEq, Prod.mk.injEq, WindowIter.mk.injEq, and_true]
      omega
    · rw [next_ge b k _ (by simpa using hi), if_neg hi]
      simp only [Except.ok.injEq, Prod.mk.injEq, WindowIter.mk.injEq, and_true]
      omega

/-- In exact arithmetic the values are those of the textbook formula. -/
theorem windowVal_real (k : WindowKind) {n : ℕ} (hn : 1 ≤ n) (i : ℕ) : windowVal ℝ k n i = shape k n i := by
  have hc : ((n - 1 : ℕ) : ℝ) = (n : ℝ) - 1 := by rw [Nat.cast_sub hn]; simp
  cases k <;> simp only [windowVal, shape, real_one, real_two, real_pi, real_add, real_sub, real_mul, real_div, real_abs,
    real_cos, real_ofUsize, real_ofF64, F64Const.evalR, hc] <;> norm_num

/-- `apply_window` on a slice whose length is the size still to come. -/
theorem applyLoop_eq [Target] (b : Build) (k : WindowKind) (n : ℕ) (hn : n < usizeMod) (xs : List T) :
    ∀ i, i + xs.length ≤ n → ∃ ys, applyLoop b k ⟨i, n⟩ xs = .ok ys ∧ ys.length = xs.length ∧
      ∀ j (h : j < xs.length), ys[j]? = some (windowVal T k n (i + j) *. xs[j]) := by
  induction xs with
  | nil => intro i _; exact ⟨[], rfl, rfl, fun j h => absurd h (by simp)⟩
  | cons x xs ih =>
    intro i hi
    rw [List.length_cons] at hi
    obtain ⟨ys, h1, h2, h3⟩ := ih (i + 1) (by omega)
    refine ⟨windowVal T k n i *. x :: ys, ?_, by simp [h2], ?_⟩
    · simp only [applyLoop]
      rw [next_lt b k _ (show i < n by omega) hn]
      show (do let rest ← applyLoop b k ⟨i + 1, n⟩ xs; Except.ok (windowVal T k n i *. x :: rest)) = _
      rw [h1]; rfl
    · intro j hj
      cases j with
      | zero => simp
      | succ j =>
        have := h3 j (by simpa using hj)
        simp only [List.getElem?_cons_succ, List.getElem_cons_succ]
        rw [this, show i + 1 + j = i + (j + 1) by omega]

end Rasp
