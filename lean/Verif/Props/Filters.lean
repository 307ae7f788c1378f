import Verif.Lemmas.Diff

/-!
# C30, C31, C32, C34, C35: the basic filters as difference equations

The bit-for-bit statements hold for any float type; the others are about exact arithmetic.
-/

namespace Rasp
open FloatOps Filter

/-! ## C30 -/

section
variable {T : Type} [FloatOps T] (b : Build) (x y : ℕ → T)

/-- **C30**, `OnePole`, bit for bit with the evaluation order of the code: a cleared filter. -/
theorem C30_onePole (s : OnePole T) :
    Responds b s.clear x y ↔ ∀ n, y n = s.b0 *. x n -. s.a1 *. lag y 1 n := by
  rw [OnePole.responds_iff, ← before_zero_eq_lag]; rfl

/-- **C30**, `OneZero`. -/
theorem C30_oneZero (s : OneZero T) :
    Responds b s.clear x y ↔ ∀ n, y n = s.b0 *. x n +. s.b1 *. lag x 1 n := by
  rw [OneZero.responds_iff, ← before_zero_eq_lag]; rfl

/-- **C30**, `TwoPole`. -/
theorem C30_twoPole (s : TwoPole T) :
    Responds b s.clear x y ↔ ∀ n, y n = s.b0 *. x n -. s.a1 *. lag y 1 n -. s.a2 *. lag y 2 n := by
  rw [TwoPole.responds_iff, ← before_before_eq_lag, ← before_zero_eq_lag]; rfl

/-- **C30**, `TwoZero`. -/
theorem C30_twoZero (s : TwoZero T) :
    Responds b s.clear x y ↔ ∀ n, y n = s.b0 *. x n +. s.b1 *. lag x 1 n +. s.b2 *. lag x 2 n := by
  rw [TwoZero.responds_iff, ← before_before_eq_lag, ← before_zero_eq_lag]; rfl

/-- **C30**, `Biquad1`. -/
theorem C30_biquad1 (s : Biquad1 T) :
    Responds b s.clear x y ↔ ∀ n, y n = s.b0 *. x n +. s.b1 *. lag x 1 n +. s.b2 *. lag x 2 n
      -. s.a1 *. lag y 1 n -. s.a2 *. lag y 2 n := by
  rw [Biquad1.responds_iff, ← before_before_eq_lag, ← before_before_eq_lag, ← before_zero_eq_lag, ← before_zero_eq_lag]; rfl

/-- **C30**, `Biquad2`, bit for bit: the transposed form computes the equation in two delayed parts. -/
theorem C30_biquad2 (s : Biquad2 T) :
    Responds b s.clear x y ↔ ∃ z1 z2 : ℕ → T, z1 0 = zero ∧ z2 0 = zero ∧ ∀ n,
      y n = s.b0 *. x n +. z1 n ∧
      z1 (n + 1) = s.b1 *. x n +. z2 n -. s.a1 *. y n ∧
      z2 (n + 1) = s.b2 *. x n -. s.a2 *. y n := by
  rw [Biquad2.responds_iff]
  constructor
  · intro h
    exact ⟨_, _, rfl, rfl, fun n => ⟨h n, rfl, rfl⟩⟩
  · rintro ⟨z1, z2, h1, h2, h⟩ n
    rw [(h n).1]
    congr 1
    have e2 : z2 = before s.clear.z2 (fun k => s.clear.b2 *. x k -. s.clear.a2 *. y k) := by
      funext m
      cases m with
      | zero => exact h2
      | succ m => exact (h m).2.2
    cases n with
    | zero => exact h1
    | succ m => rw [(h m).2.1, e2]; rfl

end

/-- **C30**, exact arithmetic: cleared filters of every type solve
`y[n] = b0 x[n] + b1 x[n-1] + b2 x[n-2] - a1 y[n-1] - a2 y[n-2]`, the coefficients they lack being zero. -/
theorem C30_cleared_solve_difference_equation :
    (∀ s : OnePole ℝ, Implements s.clear s.b0 0 0 s.a1 0) ∧
    (∀ s : OneZero ℝ, Implements s.clear s.b0 s.b1 0 0 0) ∧
    (∀ s : TwoPole ℝ, Implements s.clear s.b0 0 0 s.a1 s.a2) ∧
    (∀ s : TwoZero ℝ, Implements s.clear s.b0 s.b1 s.b2 0 0) ∧
    (∀ s : Biquad1 ℝ, Implements s.clear s.b0 s.b1 s.b2 s.a1 s.a2) ∧
    (∀ s : Biquad2 ℝ, Implements s.clear s.b0 s.b1 s.b2 s.a1 s.a2) := by
  refine ⟨fun s => ?_, fun s => ?_, fun s => ?_, fun s => ?_, fun s => ?_, fun s => ?_⟩ <;>
    apply ImplementsFrom.implements
  · simpa [OnePole.clear] using s.clear.implementsFrom
  · simpa [OneZero.clear] using s.clear.implementsFrom
  · simpa [TwoPole.clear] using s.clear.implementsFrom
  · simpa [TwoZero.clear] using s.clear.implementsFrom
  · simpa [Biquad1.clear] using s.clear.implementsFrom
  · exact s.clear.implementsFrom

/-- **C30**, exact arithmetic: the same for new filters whose coefficients were set. -/
theorem C30_new_solve_difference_equation (b0 b1 b2 a1 a2 : ℝ) :
    Implements (OnePole.new.setCoefficients b0 a1) b0 0 0 a1 0 ∧
    Implements (OneZero.new.setCoefficients b0 b1) b0 b1 0 0 0 ∧
    Implements (TwoPole.new.setCoefficients b0 a1 a2) b0 0 0 a1 a2 ∧
    Implements (TwoZero.new.setCoefficients b0 b1 b2) b0 b1 b2 0 0 ∧
    Implements (Biquad1.new.setCoefficients b0 b1 b2 a1 a2) b0 b1 b2 a1 a2 ∧
    Implements (Biquad2.new.setCoefficients b0 b1 b2 a1 a2) b0 b1 b2 a1 a2 := by
  obtain ⟨h1, h2, h3, h4, h5, h6⟩ := C30_cleared_solve_difference_equation
  exact ⟨h1 (OnePole.new.setCoefficients b0 a1), h2 (OneZero.new.setCoefficients b0 b1),
    h3 (TwoPole.new.setCoefficients b0 a1 a2), h4 (TwoZero.new.setCoefficients b0 b1 b2),
    h5 (Biquad1.new.setCoefficients b0 b1 b2 a1 a2), h6 (Biquad2.new.setCoefficients b0 b1 b2 a1 a2)⟩

/-- A response exists, and the difference equation pins its values: the impulse response of `1/(1 - z⁻¹/2)`. -/
example : SolvesDiff 1 0 0 (-1 / 2) 0 (fun n => if n = 0 then 1 else 0) (fun n => (1 / 2) ^ n) := by
  intro n
  match n with
  | 0 => simp
  | n + 1 => simp; ring

/-! ## C31 -/

/-- **C31.** Direct form I and transposed direct form II with the same coefficients, both cleared, return the same
outputs for the same inputs. -/
theorem C31_forms_agree (s : Biquad1 ℝ) (t : Biquad2 ℝ) (h0 : s.b0 = t.b0) (h1 : s.b1 = t.b1) (h2 : s.b2 = t.b2)
    (h3 : s.a1 = t.a1) (h4 : s.a2 = t.a2) (b : Build) (x y : ℕ → ℝ) :
    Responds b s.clear x y ↔ Responds b t.clear x y := by
  obtain ⟨_, _, _, _, h5, h6⟩ := C30_cleared_solve_difference_equation
  rw [h5 s, h6 t, h0, h1, h2, h3, h4]

/-- **C31** is false if coefficients change mid-stream: after the sample `1`, both new filters are given the same
coefficients `1, 1, 0, 0, 0`; on the next sample `0` they return `1` and `0`. -/
theorem C31_false_mid_stream :
    let s := ((Biquad1.new : Biquad1 ℝ).process 1).1.setCoefficients 1 1 0 0 0
    let t := ((Biquad2.new : Biquad2 ℝ).process 1).1.setCoefficients 1 1 0 0 0
    ((Biquad1.new : Biquad1 ℝ).process 1).2 = ((Biquad2.new : Biquad2 ℝ).process 1).2 ∧
    (s.process 0).2 = 1 ∧ (t.process 0).2 = 0 := by
  simp [Biquad1.new, Biquad2.new, Biquad1.process, Biquad2.process, Biquad1.setCoefficients, Biquad2.setCoefficients]

/-! ## C32 -/

/-- **C32.** All cleared basic filters are linear. -/
theorem C32_linear :
    (∀ s : OnePole ℝ, IsLinear s.clear) ∧ (∀ s : OneZero ℝ, IsLinear s.clear) ∧
    (∀ s : TwoPole ℝ, IsLinear s.clear) ∧ (∀ s : TwoZero ℝ, IsLinear s.clear) ∧
    (∀ s : Biquad1 ℝ, IsLinear s.clear) ∧ (∀ s : Biquad2 ℝ, IsLinear s.clear) := by
  obtain ⟨h1, h2, h3, h4, h5, h6⟩ := C30_cleared_solve_difference_equation
  exact ⟨fun s => (h1 s).isLinear, fun s => (h2 s).isLinear, fun s => (h3 s).isLinear, fun s => (h4 s).isLinear,
    fun s => (h5 s).isLinear, fun s => (h6 s).isLinear⟩

/-- **C32.** All cleared basic filters are time-invariant. -/
theorem C32_time_invariant :
    (∀ s : OnePole ℝ, IsTimeInvariant s.clear) ∧ (∀ s : OneZero ℝ, IsTimeInvariant s.clear) ∧
    (∀ s : TwoPole ℝ, IsTimeInvariant s.clear) ∧ (∀ s : TwoZero ℝ, IsTimeInvariant s.clear) ∧
    (∀ s : Biquad1 ℝ, IsTimeInvariant s.clear) ∧ (∀ s : Biquad2 ℝ, IsTimeInvariant s.clear) := by
  obtain ⟨h1, h2, h3, h4, h5, h6⟩ := C30_cleared_solve_difference_equation
  exact ⟨fun s => (h1 s).isTimeInvariant, fun s => (h2 s).isTimeInvariant, fun s => (h3 s).isTimeInvariant,
    fun s => (h4 s).isTimeInvariant, fun s => (h5 s).isTimeInvariant, fun s => (h6 s).isTimeInvariant⟩

/-- Linearity needs the cleared state: a filter that still rings answers silence with something. -/
example : ¬ IsLinear ({ y_z1 := 1, b0 := 1, a1 := 1 } : OnePole ℝ) := by
  intro h
  have hr : Responds ⟨true⟩ ({ y_z1 := 1, b0 := 1, a1 := 1 } : OnePole ℝ) (fun _ => 0) (fun n => (-1) ^ (n + 1)) := by
    rw [OnePole.responds_iff]
    intro n
    cases n with
    | zero => simp [before]
    | succ n => simp [before]; ring
  have h2 := h.2 _ _ _ _ _ 1 1 hr hr
  simp only [mul_zero, add_zero] at h2
  have h3 := congrFun (hr.unique h2) 0
  norm_num at h3

/-! ## C34 -/

/-- **C34.** Each small filter, cleared, answers every stream like either biquad with its missing coefficients zero. -/
theorem C34_small_filters_are_biquads (b : Build) (x y : ℕ → ℝ) :
    (∀ s : OnePole ℝ, (Responds b s.clear x y ↔ Responds b (Biquad1.new.setCoefficients s.b0 0 0 s.a1 0) x y) ∧
      (Responds b s.clear x y ↔ Responds b (Biquad2.new.setCoefficients s.b0 0 0 s.a1 0) x y)) ∧
    (∀ s : OneZero ℝ, (Responds b s.clear x y ↔ Responds b (Biquad1.new.setCoefficients s.b0 s.b1 0 0 0) x y) ∧
      (Responds b s.clear x y ↔ Responds b (Biquad2.new.setCoefficients s.b0 s.b1 0 0 0) x y)) ∧
    (∀ s : TwoPole ℝ, (Responds b s.clear x y ↔ Responds b (Biquad1.new.setCoefficients s.b0 0 0 s.a1 s.a2) x y) ∧
      (Responds b s.clear x y ↔ Responds b (Biquad2.new.setCoefficients s.b0 0 0 s.a1 s.a2) x y)) ∧
    (∀ s : TwoZero ℝ, (Responds b s.clear x y ↔ Responds b (Biquad1.new.setCoefficients s.b0 s.b1 s.b2 0 0) x y) ∧
      (Responds b s.clear x y ↔ Responds b (Biquad2.new.setCoefficients s.b0 s.b1 s.b2 0 0) x y)) := by
  obtain ⟨h1, h2, h3, h4, _, _⟩ := C30_cleared_solve_difference_equation
  have h5 := fun b0 b1 b2 a1 a2 => (C30_new_solve_difference_equation b0 b1 b2 a1 a2).2.2.2.2.1
  have h6 := fun b0 b1 b2 a1 a2 => (C30_new_solve_difference_equation b0 b1 b2 a1 a2).2.2.2.2.2
  refine ⟨fun s => ⟨?_, ?_⟩, fun s => ⟨?_, ?_⟩, fun s => ⟨?_, ?_⟩, fun s => ⟨?_, ?_⟩⟩
  · rw [h1 s, h5]
  · rw [h1 s, h6]
  · rw [h2 s, h5]
  · rw [h2 s, h6]
  · rw [h3 s, h5]
  · rw [h3 s, h6]
  · rw [h4 s, h5]
  · rw [h4 s, h6]

/-! ## C35 -/

theorem stablePair_zero : StablePair 0 0 := by simp [StablePair]

theorem stablePair_one {a1 : ℝ} (h : |a1| < 1) : StablePair a1 0 := by simpa [StablePair] using h

/-- **C35**, bounded: from every state, streams bounded by `B` give outputs with one common bound. -/
theorem C35_bounded :
    (∀ s : OnePole ℝ, |s.a1| < 1 → IsBounded s) ∧ (∀ s : OneZero ℝ, IsBounded s) ∧
    (∀ s : TwoPole ℝ, |s.a2| < 1 → |s.a1| < 1 + s.a2 → IsBounded s) ∧ (∀ s : TwoZero ℝ, IsBounded s) ∧
    (∀ s : Biquad1 ℝ, |s.a2| < 1 → |s.a1| < 1 + s.a2 → IsBounded s) ∧
    (∀ s : Biquad2 ℝ, |s.a2| < 1 → |s.a1| < 1 + s.a2 → IsBounded s) :=
  ⟨fun s h => s.implementsFrom.isBounded (stablePair_one h), fun s => s.implementsFrom.isBounded stablePair_zero,
   fun s h h' => s.implementsFrom.isBounded ⟨h, h'⟩, fun s => s.implementsFrom.isBounded stablePair_zero,
   fun s h h' => s.implementsFrom.isBounded ⟨h, h'⟩, fun s h h' => s.implementsFrom.isBounded ⟨h, h'⟩⟩

/-- **C35**, cleared filters: outputs are at most a fixed factor times the input bound. -/
theorem C35_bounded_gain :
    (∀ s : OnePole ℝ, |s.a1| < 1 → IsBoundedGain s.clear) ∧ (∀ s : OneZero ℝ, IsBoundedGain s.clear) ∧
    (∀ s : TwoPole ℝ, |s.a2| < 1 → |s.a1| < 1 + s.a2 → IsBoundedGain s.clear) ∧
    (∀ s : TwoZero ℝ, IsBoundedGain s.clear) ∧
    (∀ s : Biquad1 ℝ, |s.a2| < 1 → |s.a1| < 1 + s.a2 → IsBoundedGain s.clear) ∧
    (∀ s : Biquad2 ℝ, |s.a2| < 1 → |s.a1| < 1 + s.a2 → IsBoundedGain s.clear) := by
  obtain ⟨h1, h2, h3, h4, h5, h6⟩ := C30_cleared_solve_difference_equation
  exact ⟨fun s h => (h1 s).isBoundedGain (stablePair_one h), fun s => (h2 s).isBoundedGain stablePair_zero,
    fun s h h' => (h3 s).isBoundedGain ⟨h, h'⟩, fun s => (h4 s).isBoundedGain stablePair_zero,
    fun s h h' => (h5 s).isBoundedGain ⟨h, h'⟩, fun s h h' => (h6 s).isBoundedGain ⟨h, h'⟩⟩

/-- **C35**, decay: from every state, the output dies away once the input is silent. -/
theorem C35_silence_decays :
    (∀ s : OnePole ℝ, |s.a1| < 1 → SilenceDecays s) ∧ (∀ s : OneZero ℝ, SilenceDecays s) ∧
    (∀ s : TwoPole ℝ, |s.a2| < 1 → |s.a1| < 1 + s.a2 → SilenceDecays s) ∧ (∀ s : TwoZero ℝ, SilenceDecays s) ∧
    (∀ s : Biquad1 ℝ, |s.a2| < 1 → |s.a1| < 1 + s.a2 → SilenceDecays s) ∧
    (∀ s : Biquad2 ℝ, |s.a2| < 1 → |s.a1| < 1 + s.a2 → SilenceDecays s) :=
  ⟨fun s h => s.implementsFrom.silenceDecays (stablePair_one h), fun s => s.implementsFrom.silenceDecays stablePair_zero,
   fun s h h' => s.implementsFrom.silenceDecays ⟨h, h'⟩, fun s => s.implementsFrom.silenceDecays stablePair_zero,
   fun s h h' => s.implementsFrom.silenceDecays ⟨h, h'⟩, fun s h h' => s.implementsFrom.silenceDecays ⟨h, h'⟩⟩

/-- A resonant stable biquad: complex poles of modulus `√0.9`. -/
example : StablePair (-1.8) 0.9 ∧ (-1.8 : ℝ) ^ 2 - 4 * 0.9 < 0 := by
  refine ⟨⟨?_, ?_⟩, by norm_num⟩
  · rw [abs_lt]; constructor <;> norm_num
  · rw [abs_lt]; constructor <;> norm_num

/-- The condition of C35 matters: at `|a1| = 1` the cleared one-pole filter answers the constant `1` without bound. -/
theorem C35_sharp : Total (T := ℝ) (OnePole.new.setCoefficients 1 (-1) : OnePole ℝ) ∧
    ¬ IsBounded (OnePole.new.setCoefficients 1 (-1) : OnePole ℝ) := by
  refine ⟨(OnePole.implementsFrom _).total, ?_⟩
  intro h
  obtain ⟨M, hM⟩ := h.2 1
  have hr : Responds ⟨true⟩ (OnePole.new.setCoefficients 1 (-1) : OnePole ℝ) (fun _ => 1) (fun n => (n : ℝ) + 1) := by
    rw [OnePole.responds_iff]
    intro n
    cases n with
    | zero => simp [before, OnePole.new, OnePole.setCoefficients]
    | succ n => simp [before, OnePole.setCoefficients]; ring
  obtain ⟨n, hn⟩ := exists_nat_gt M
  have := hM _ _ _ hr (by simp) n
  rw [abs_of_nonneg (by positivity)] at this
  linarith

end Rasp
