import Verif.Spec.Identify
import Verif.Props.Impulse
import Verif.Props.Mirror
import Verif.Props.LinearReal
import Verif.Props.Envelope
import Verif.Props.Ratio

/-!
# C143: different settings are different processors
-/

namespace Rasp
open Real
variable {σ τ : Type} [Processor σ ℝ] [Processor τ ℝ]

/-! ## Difference equations -/

theorem SolvesDiff.first_samples {b0 b1 b2 a1 a2 : ℝ} {h : ℕ → ℝ} (H : SolvesDiff b0 b1 b2 a1 a2 unitImpulse h) :
    h 0 = b0 ∧ h 1 = b1 - a1 * h 0 ∧ h 2 = b2 - a1 * h 1 - a2 * h 0 ∧ h 3 = -a1 * h 2 - a2 * h 1 ∧ h 4 = -a1 * h 3 - a2 * h 2 := by
  have h0 := H 0
  have h1 := H 1
  have h2 := H 2
  have h3 := H 3
  have h4 := H 4
  simp [lag, unitImpulse] at h0 h1 h2 h3 h4
  exact ⟨h0, h1, by linarith, by linarith, by linarith⟩

/-- Five samples of the impulse response determine the coefficients of an irreducible fraction. -/
theorem Implements.five {s : σ} {t : τ} {b0 b1 b2 a1 a2 b0' b1' b2' a1' a2' : ℝ} (hs : Implements s b0 b1 b2 a1 a2)
    (ht : Implements t b0' b1' b2' a1' a2') (h : SameStart 5 s t) (hi : Irreducible2 b0 b1 b2 a1 a2) :
    b0 = b0' ∧ b1 = b1' ∧ b2 = b2' ∧ a1 = a1' ∧ a2 = a2' := by
  obtain ⟨b, b', x, x', hx, hx', he⟩ := h
  obtain ⟨x0, x1, x2, x3, x4⟩ := ((hs _ _ _).mp hx).first_samples
  obtain ⟨y0, y1, y2, y3, y4⟩ := ((ht _ _ _).mp hx').first_samples
  rw [← he 0 (by norm_num), ← he 1 (by norm_num), ← he 2 (by norm_num), ← he 3 (by norm_num), ← he 4 (by norm_num)] at *
  have hd : x 2 ^ 2 - x 1 * x 3 ≠ 0 := by
    refine fun hc => hi ?_
    rw [← hc, x3, x2, x1, x0]
    ring
  have e1 : (a1' - a1) * (x 2 ^ 2 - x 1 * x 3) = 0 := by linear_combination -x 2 * (x3 - y3) + x 1 * (x4 - y4)
  have e2 : (a2' - a2) * (x 2 ^ 2 - x 1 * x 3) = 0 := by linear_combination -x 2 * (x4 - y4) + x 3 * (x3 - y3)
  have f1 : a1' = a1 := by have := (mul_eq_zero.mp e1).resolve_right hd; linarith
  have f2 : a2' = a2 := by have := (mul_eq_zero.mp e2).resolve_right hd; linarith
  subst f1 f2
  exact ⟨by linarith, by linarith, by linarith, rfl, rfl⟩

/-- Three samples do for a fraction of first degree. -/
theorem Implements.three {s : σ} {t : τ} {b0 b1 a1 b0' b1' a1' : ℝ} (hs : Implements s b0 b1 0 a1 0)
    (ht : Implements t b0' b1' 0 a1' 0) (h : SameStart 3 s t) (hi : b1 ≠ a1 * b0) : b0 = b0' ∧ b1 = b1' ∧ a1 = a1' := by
  obtain ⟨b, b', x, x', hx, hx', he⟩ := h
  obtain ⟨x0, x1, x2, -, -⟩ := ((hs _ _ _).mp hx).first_samples
  obtain ⟨y0, y1, y2, -, -⟩ := ((ht _ _ _).mp hx').first_samples
  rw [← he 0 (by norm_num), ← he 1 (by norm_num), ← he 2 (by norm_num)] at *
  have hd : x 1 ≠ 0 := by
    refine fun hc => hi ?_
    rw [x1, x0] at hc
    linarith
  have e1 : (a1' - a1) * x 1 = 0 := by linear_combination y2 - x2
  have f1 : a1' = a1 := by have := (mul_eq_zero.mp e1).resolve_right hd; linarith
  subst f1
  exact ⟨by linarith, by linarith, rfl⟩

theorem SameStart.mono {s : σ} {t : τ} {k l : ℕ} (hkl : l ≤ k) (h : SameStart k s t) : SameStart l s t := by
  obtain ⟨b, b', x, x', hx, hx', he⟩ := h
  exact ⟨b, b', x, x', hx, hx', fun n hn => he n (by omega)⟩

theorem SameStart.symm {s : σ} {t : τ} {k : ℕ} (h : SameStart k s t) : SameStart k t s := by
  obtain ⟨b, b', x, x', hx, hx', he⟩ := h
  exact ⟨b', b, x', x, hx', hx, fun n hn => (he n hn).symm⟩

/-- A common factor `1 + g z` of numerator and denominator cancels. -/
theorem solvesDiff_cancel {b0 b1 a1 g : ℝ} {x y : ℕ → ℝ} :
    SolvesDiff b0 (b1 + g * b0) (g * b1) (a1 + g) (g * a1) x y ↔ SolvesDiff b0 b1 0 a1 0 x y := by
  have key : ∀ n, y n - (b0 * x n + (b1 + g * b0) * lag x 1 n + g * b1 * lag x 2 n - (a1 + g) * lag y 1 n - g * a1 * lag y 2 n) =
      (y n - (b0 * x n + b1 * lag x 1 n - a1 * lag y 1 n)) +
        g * lag (fun n => y n - (b0 * x n + b1 * lag x 1 n - a1 * lag y 1 n)) 1 n := by
    intro n
    match n with
    | 0 => simp [lag]
    | 1 => simp [lag]; ring
    | n + 2 => simp [lag]; ring
  constructor
  · intro h n
    induction n with
    | zero => have := h 0; simp [lag] at this ⊢; exact this
    | succ n ih =>
      have h1 := key (n + 1)
      rw [← h (n + 1), sub_self] at h1
      have h2 : lag (fun n => y n - (b0 * x n + b1 * lag x 1 n - a1 * lag y 1 n)) 1 (n + 1) = 0 := by
        simp only [lag, Nat.le_add_left, if_true, Nat.add_sub_cancel]
        simp only [lag] at ih
        linarith
      rw [h2] at h1
      linarith
  · intro h n
    have h0 : ∀ n, y n - (b0 * x n + b1 * lag x 1 n - a1 * lag y 1 n) = 0 := fun n => by have := h n; linarith
    have h1 := key n
    rw [h0 n] at h1
    have h2 : lag (fun n => y n - (b0 * x n + b1 * lag x 1 n - a1 * lag y 1 n)) 1 n = 0 := by
      cases n with
      | zero => rfl
      | succ n =>
        have := h0 n
        simpa only [lag, Nat.le_add_left, if_true, Nat.add_sub_cancel] using this
    rw [h2] at h1
    linarith

/-! ## Basic filters -/

/-- **C143.** The coefficients of the basic filters, from the first samples of the answer to an impulse after `clear`. -/
theorem C143_filters :
    (∀ s t : OnePole ℝ, s.b0 ≠ 0 → SameStart 2 s.clear t.clear → s.b0 = t.b0 ∧ s.a1 = t.a1) ∧
    (∀ s t : OneZero ℝ, SameStart 2 s.clear t.clear → s.b0 = t.b0 ∧ s.b1 = t.b1) ∧
    (∀ s t : TwoPole ℝ, s.b0 ≠ 0 → SameStart 3 s.clear t.clear → s.b0 = t.b0 ∧ s.a1 = t.a1 ∧ s.a2 = t.a2) ∧
    (∀ s t : TwoZero ℝ, SameStart 3 s.clear t.clear → s.b0 = t.b0 ∧ s.b1 = t.b1 ∧ s.b2 = t.b2) ∧
    (∀ s t : Biquad1 ℝ, Irreducible2 s.b0 s.b1 s.b2 s.a1 s.a2 → SameStart 5 s.clear t.clear →
      s.b0 = t.b0 ∧ s.b1 = t.b1 ∧ s.b2 = t.b2 ∧ s.a1 = t.a1 ∧ s.a2 = t.a2) ∧
    (∀ s t : Biquad2 ℝ, Irreducible2 s.b0 s.b1 s.b2 s.a1 s.a2 → SameStart 5 s.clear t.clear →
      s.b0 = t.b0 ∧ s.b1 = t.b1 ∧ s.b2 = t.b2 ∧ s.a1 = t.a1 ∧ s.a2 = t.a2) := by
  obtain ⟨i1, i2, i3, i4, i5, i6⟩ := C30_cleared_solve_difference_equation
  refine ⟨fun s t h0 h => ?_, fun s t h => ?_, fun s t h0 h => ?_, fun s t h => ?_, fun s t hi h => (i5 s).five (i5 t) h hi,
    fun s t hi h => (i6 s).five (i6 t) h hi⟩
  · obtain ⟨b, b', x, x', hx, hx', he⟩ := h
    obtain ⟨x0, x1, -⟩ := ((i1 s _ _ _).mp hx).first_samples
    obtain ⟨y0, y1, -⟩ := ((i1 t _ _ _).mp hx').first_samples
    have e0 := he 0 (by norm_num)
    have e1 := he 1 (by norm_num)
    rw [x0, y0] at e0
    refine ⟨e0, mul_right_cancel₀ h0 ?_⟩
    rw [x1, y1, x0, y0, ← e0] at e1
    linarith
  · obtain ⟨b, b', x, x', hx, hx', he⟩ := h
    obtain ⟨x0, x1, -⟩ := ((i2 s _ _ _).mp hx).first_samples
    obtain ⟨y0, y1, -⟩ := ((i2 t _ _ _).mp hx').first_samples
    have e0 := he 0 (by norm_num)
    have e1 := he 1 (by norm_num)
    constructor <;> linarith
  · obtain ⟨b, b', x, x', hx, hx', he⟩ := h
    obtain ⟨x0, x1, x2, -⟩ := ((i3 s _ _ _).mp hx).first_samples
    obtain ⟨y0, y1, y2, -⟩ := ((i3 t _ _ _).mp hx').first_samples
    have e0 := he 0 (by norm_num)
    have e1 := he 1 (by norm_num)
    have e2 := he 2 (by norm_num)
    have f0 : s.b0 = t.b0 := by rw [← x0, e0, y0]
    have f1 : s.a1 = t.a1 := by
      refine mul_right_cancel₀ h0 ?_
      rw [x1, y1, x0, y0, ← f0] at e1
      linarith
    refine ⟨f0, f1, mul_right_cancel₀ h0 ?_⟩
    rw [x2, y2, ← e1, ← e0, x0, ← f1] at e2
    linarith
  · obtain ⟨b, b', x, x', hx, hx', he⟩ := h
    obtain ⟨x0, x1, x2, -⟩ := ((i4 s _ _ _).mp hx).first_samples
    obtain ⟨y0, y1, y2, -⟩ := ((i4 t _ _ _).mp hx').first_samples
    have e0 := he 0 (by norm_num)
    have e1 := he 1 (by norm_num)
    have e2 := he 2 (by norm_num)
    refine ⟨by linarith, by linarith, by linarith⟩

/-- **C143.** Without irreducibility the coefficients are not determined: a common factor can be added. -/
theorem C143_reducible (b0 b1 a1 g : ℝ) (b : Build) (x y : ℕ → ℝ) (s t : Biquad1 ℝ) :
    Responds b (s.setCoefficients b0 (b1 + g * b0) (g * b1) (a1 + g) (g * a1)).clear x y ↔
      Responds b (t.setCoefficients b0 b1 0 a1 0).clear x y := by
  obtain ⟨-, -, -, -, i5, -⟩ := C30_cleared_solve_difference_equation
  rw [i5 _ b x y, i5 _ b x y]
  exact solvesDiff_cancel

/-! ## rbj filters -/

variable {sr f q db S sr' f' q' db' S' : ℝ}

theorem angle_mem_Ioo (h : ValidParams sr f q) : 0 < angle sr f ∧ angle sr f < π := by
  obtain ⟨h1, h2, -⟩ := h
  have hsr : 0 < sr := by linarith
  unfold angle
  constructor
  · positivity
  · rw [div_lt_iff₀ hsr]
    have := pi_pos
    nlinarith

theorem ratio_of_cos (h : ValidParams sr f q) (h' : ValidParams sr' f' q') (hc : cos (angle sr f) = cos (angle sr' f')) :
    angle sr f = angle sr' f' ∧ f / sr = f' / sr' := by
  obtain ⟨a1, a2⟩ := angle_mem_Ioo h
  obtain ⟨b1, b2⟩ := angle_mem_Ioo h'
  have e := injOn_cos ⟨a1.le, a2.le⟩ ⟨b1.le, b2.le⟩ hc
  refine ⟨e, ?_⟩
  unfold angle at e
  have hp : (2 * π) ≠ 0 := by positivity
  exact mul_left_cancel₀ hp (by rw [← mul_div_assoc, ← mul_div_assoc]; exact e)

/-- The denominator of the six simple rbj filters determines the parameters. -/
theorem damping_of_den {α α' c c' : ℝ} (h : 0 < α) (h' : 0 < α') (h1 : -2 * c / (1 + α) = -2 * c' / (1 + α'))
    (h2 : (1 - α) / (1 + α) = (1 - α') / (1 + α')) : α = α' ∧ c = c' := by
  have p : 1 + α ≠ 0 := by linarith
  have p' : 1 + α' ≠ 0 := by linarith
  rw [div_eq_div_iff p p'] at h1 h2
  have e : α = α' := by linarith
  subst e
  have := mul_right_cancel₀ p h1
  exact ⟨rfl, by linarith⟩

theorem params_of_den (h : ValidParams sr f q) (h' : ValidParams sr' f' q')
    (h1 : -2 * cos (angle sr f) / (1 + alphaQ sr f q) = -2 * cos (angle sr' f') / (1 + alphaQ sr' f' q'))
    (h2 : (1 - alphaQ sr f q) / (1 + alphaQ sr f q) = (1 - alphaQ sr' f' q') / (1 + alphaQ sr' f' q')) : f / sr = f' / sr' ∧ q = q' := by
  obtain ⟨e1, e2⟩ := damping_of_den h.alphaQ_pos h'.alphaQ_pos h1 h2
  obtain ⟨e3, e4⟩ := ratio_of_cos h h' e2
  refine ⟨e4, ?_⟩
  have hs := h.sin_pos
  have q0 := h.2.2
  have q0' := h'.2.2
  unfold alphaQ at e1
  rw [← e3, div_eq_div_iff (by positivity) (by positivity)] at e1
  have := mul_left_cancel₀ hs.ne' e1
  linarith

/-- Fractions with a common denominator that cannot be reduced. -/
theorem irreducible_div {b0 b1 b2 a0 a1 a2 r : ℝ} (h0 : a0 ≠ 0) (hr : r ≠ 0)
    (e : a0 * (b2 * a0 - a2 * b0) ^ 2 - a1 * (b2 * a0 - a2 * b0) * (b1 * a0 - a1 * b0) + a2 * (b1 * a0 - a1 * b0) ^ 2 = r) :
    Irreducible2 (b0 / a0) (b1 / a0) (b2 / a0) (a1 / a0) (a2 / a0) := by
  unfold Irreducible2
  have : (b2 / a0 - a2 / a0 * (b0 / a0)) ^ 2 - a1 / a0 * (b2 / a0 - a2 / a0 * (b0 / a0)) * (b1 / a0 - a1 / a0 * (b0 / a0)) +
      a2 / a0 * (b1 / a0 - a1 / a0 * (b0 / a0)) ^ 2 = r / a0 ^ 5 := by
    rw [← e]
    field_simp
  rw [this]
  exact div_ne_zero hr (pow_ne_zero _ h0)

/-- **C143.** Five samples of the answer to an impulse tell the ratio of frequency and sample rate and the `q` of six rbj filters. -/
theorem C143_rbj (h : ValidParams sr f q) (h' : ValidParams sr' f' q') :
    (∀ s t : LowPass ℝ, SameStart 5 (s.setCoefficients sr f q) (t.setCoefficients sr' f' q') → f / sr = f' / sr' ∧ q = q') ∧
    (∀ s t : HighPass ℝ, SameStart 5 (s.setCoefficients sr f q) (t.setCoefficients sr' f' q') → f / sr = f' / sr' ∧ q = q') ∧
    (∀ s t : BandPass1 ℝ, SameStart 5 (s.setCoefficients sr f q) (t.setCoefficients sr' f' q') → f / sr = f' / sr' ∧ q = q') ∧
    (∀ s t : BandPass2 ℝ, SameStart 5 (s.setCoefficients sr f q) (t.setCoefficients sr' f' q') → f / sr = f' / sr' ∧ q = q') ∧
    (∀ s t : BandStop ℝ, SameStart 5 (s.setCoefficients sr f q) (t.setCoefficients sr' f' q') → f / sr = f' / sr' ∧ q = q') ∧
    (∀ s t : AllPass ℝ, SameStart 5 (s.setCoefficients sr f q) (t.setCoefficients sr' f' q') → f / sr = f' / sr' ∧ q = q') := by
  have hα := h.alphaQ_pos
  have hs := h.sin_pos
  obtain ⟨c1, c2⟩ := cos_lt_one_of_sin_pos hs
  have hsc := Real.sin_sq_add_cos_sq (angle sr f)
  have hd : 1 + alphaQ sr f q ≠ 0 := by linarith
  have hd' : 0 < 1 + alphaQ sr f q := by linarith
  have hm : 0 < 1 - cos (angle sr f) := by linarith
  have hp : 0 < 1 + cos (angle sr f) := by linarith
  have hq := h.2.2
  refine ⟨fun s t g => ?_, fun s t g => ?_, fun s t g => ?_, fun s t g => ?_, fun s t g => ?_, fun s t g => ?_⟩
  · obtain ⟨-, -, -, e1, e2⟩ := (s.implements sr f q).five (t.implements sr' f' q') g (irreducible_div hd
      (r := (1 + alphaQ sr f q) * (1 - cos (angle sr f)) ^ 2 * (1 + cos (angle sr f)) ^ 2) (by positivity) (by ring))
    exact params_of_den h h' e1 e2
  · obtain ⟨-, -, -, e1, e2⟩ := (s.implements sr f q).five (t.implements sr' f' q') g (irreducible_div hd
      (r := (1 + alphaQ sr f q) * (1 - cos (angle sr f)) ^ 2 * (1 + cos (angle sr f)) ^ 2) (by positivity) (by ring))
    exact params_of_den h h' e1 e2
  · obtain ⟨-, -, -, e1, e2⟩ := (s.implements sr f q).five (t.implements sr' f' q') g (irreducible_div hd
      (r := 4 * (1 + alphaQ sr f q) * (q * alphaQ sr f q) ^ 2 * (1 - cos (angle sr f)) * (1 + cos (angle sr f))) (by positivity) (by ring))
    exact params_of_den h h' e1 e2
  · obtain ⟨-, -, -, e1, e2⟩ := (s.implements sr f q).five (t.implements sr' f' q') g (irreducible_div hd
      (r := 4 * (1 + alphaQ sr f q) * alphaQ sr f q ^ 2 * (1 - cos (angle sr f)) * (1 + cos (angle sr f))) (by positivity) (by ring))
    exact params_of_den h h' e1 e2
  · obtain ⟨-, -, -, e1, e2⟩ := (s.implements sr f q).five (t.implements sr' f' q') g (irreducible_div hd
      (r := 4 * (1 + alphaQ sr f q) * alphaQ sr f q ^ 2 * (1 - cos (angle sr f)) * (1 + cos (angle sr f))) (by positivity) (by ring))
    exact params_of_den h h' e1 e2
  · obtain ⟨-, -, -, e1, e2⟩ := (s.implements sr f q).five (t.implements sr' f' q') g (irreducible_div hd
      (r := 16 * (1 + alphaQ sr f q) * alphaQ sr f q ^ 2 * (1 - cos (angle sr f)) * (1 + cos (angle sr f))) (by positivity) (by ring))
    exact params_of_den h h' e1 e2

theorem gainA_inj (h : gainA db = gainA db') : db = db' := by
  unfold gainA at h
  have h1 := congrArg Real.log h
  rw [log_rpow (by norm_num), log_rpow (by norm_num)] at h1
  have h2 := mul_right_cancel₀ (log_pos (by norm_num : (1 : ℝ) < 10)).ne' h1
  linarith

theorem gainA_ne_one_of_ne (h : db ≠ 0) : gainA db ≠ 1 := fun hc => h (gainA_inj (by rw [hc, gainA_zero]))

/-- **C143.** `Peak`: the gain, and unless that is 0 dB the other parameters too. -/
theorem C143_peak (h : ValidParams sr f q) (h' : ValidParams sr' f' q') (s t : Peak ℝ)
    (g : SameStart 5 (s.setCoefficients sr f db q) (t.setCoefficients sr' f' db' q')) :
    db = db' ∧ (db ≠ 0 → f / sr = f' / sr' ∧ q = q') := by
  have one : ∀ {sr f db q sr' f' db' q' : ℝ}, ValidParams sr f q → ValidParams sr' f' q' → ∀ s t : Peak ℝ,
      SameStart 5 (s.setCoefficients sr f db q) (t.setCoefficients sr' f' db' q') → db ≠ 0 → db = db' ∧ f / sr = f' / sr' ∧ q = q' := by
    intro sr f db q sr' f' db' q' h h' s t g hdb
    have hα := h.alphaQ_pos
    have hA := gainA_pos db
    have hA' := gainA_pos db'
    have hs := h.sin_pos
    obtain ⟨c1, c2⟩ := cos_lt_one_of_sin_pos hs
    have hm : 0 < 1 - cos (angle sr f) := by linarith
    have hp : 0 < 1 + cos (angle sr f) := by linarith
    have hβ : 0 < alphaQ sr f q / gainA db := div_pos hα hA
    have hβ' : 0 < alphaQ sr' f' q' / gainA db' := div_pos h'.alphaQ_pos hA'
    have hd : 1 + alphaQ sr f q / gainA db ≠ 0 := by linarith
    have hne : alphaQ sr f q * gainA db - alphaQ sr f q / gainA db ≠ 0 := by
      intro hc
      have : alphaQ sr f q * (gainA db ^ 2 - 1) = 0 := by
        have : (alphaQ sr f q * gainA db - alphaQ sr f q / gainA db) * gainA db = 0 := by rw [hc, zero_mul]
        rw [← this]; field_simp
      have h1 := (mul_eq_zero.mp this).resolve_left hα.ne'
      refine gainA_ne_one_of_ne hdb ?_
      nlinarith
    obtain ⟨e0, -, -, e1, e2⟩ := (s.implements sr f db q).five (t.implements sr' f' db' q') g (irreducible_div hd
      (r := 4 * (1 + alphaQ sr f q / gainA db) * (alphaQ sr f q * gainA db - alphaQ sr f q / gainA db) ^ 2 * (1 - cos (angle sr f)) * (1 + cos (angle sr f)))
      (by
        have : 1 + alphaQ sr f q / gainA db ≠ 0 := hd
        refine mul_ne_zero (mul_ne_zero (mul_ne_zero (mul_ne_zero (by norm_num) this) (pow_ne_zero _ hne)) hm.ne') hp.ne') (by ring))
    obtain ⟨f1, f2⟩ := damping_of_den hβ hβ' e1 e2
    rw [f1] at e0
    have e3 : alphaQ sr f q * gainA db = alphaQ sr' f' q' * gainA db' := by
      have hd2 : 1 + alphaQ sr' f' q' / gainA db' ≠ 0 := by linarith
      rw [div_left_inj' hd2] at e0
      linarith
    have e4 : gainA db ^ 2 = gainA db' ^ 2 := by
      have k1 : alphaQ sr f q * gainA db = alphaQ sr f q / gainA db * gainA db ^ 2 := by field_simp
      have k2 : alphaQ sr' f' q' * gainA db' = alphaQ sr' f' q' / gainA db' * gainA db' ^ 2 := by field_simp
      rw [k1, k2, f1] at e3
      exact mul_left_cancel₀ hβ'.ne' e3
    have e5 : gainA db = gainA db' := by nlinarith
    obtain ⟨e6, e7⟩ := ratio_of_cos h h' f2
    refine ⟨gainA_inj e5, e7, ?_⟩
    have q0 := h.2.2
    have q0' := h'.2.2
    rw [e5] at e3
    have e8 := mul_right_cancel₀ hA'.ne' e3
    unfold alphaQ at e8
    rw [← e6, div_eq_div_iff (by positivity) (by positivity)] at e8
    have := mul_left_cancel₀ hs.ne' e8
    linarith
  by_cases hdb : db = 0
  · refine ⟨?_, fun hc => absurd hdb hc⟩
    by_contra hc
    exact hc (one h' h t s g.symm (fun h0 => hc (by rw [hdb, h0]))).1.symm
  · obtain ⟨e1, e2⟩ := one h h' s t g hdb
    exact ⟨e1, fun _ => e2⟩

/-! ### Shelves -/

theorem irreducible_shelf {A c p : ℝ} (hA : 0 < A) (hA1 : A ≠ 1) (h1 : -1 < c) (h2 : c < 1) (hp : 0 < p)
    (hne : (A + 1) ^ 2 * (1 - c ^ 2) - p ^ 2 ≠ 0) :
    Irreducible2 (A * (A + 1 - (A - 1) * c + p) / (A + 1 + (A - 1) * c + p)) (2 * A * (A - 1 - (A + 1) * c) / (A + 1 + (A - 1) * c + p))
      (A * (A + 1 - (A - 1) * c - p) / (A + 1 + (A - 1) * c + p)) (-2 * (A - 1 + (A + 1) * c) / (A + 1 + (A - 1) * c + p))
      ((A + 1 + (A - 1) * c - p) / (A + 1 + (A - 1) * c + p)) := by
  have h0 := lowShelf_den_pos hA h1 h2 hp
  refine irreducible_div (r := 16 * A ^ 2 * (A - 1) ^ 2 * (A + 1 + (A - 1) * c + p) * ((1 - c) * (1 + c)) * ((A + 1) ^ 2 * (1 - c ^ 2) - p ^ 2)) h0.ne' ?_ (by ring)
  have k1 : (A - 1) ^ 2 ≠ 0 := pow_ne_zero _ (sub_ne_zero.mpr hA1)
  have k2 : (1 - c) * (1 + c) ≠ 0 := (mul_pos (by linarith) (by linarith)).ne'
  exact mul_ne_zero (mul_ne_zero (mul_ne_zero (mul_ne_zero (by positivity) k1) h0.ne') k2) hne

theorem shelf_inj {A c p A' c' p' : ℝ} (hA : 0 < A) (h1 : -1 < c) (h2 : c < 1) (hp : 0 < p)
    (hA' : 0 < A') (h1' : -1 < c') (h2' : c' < 1) (hp' : 0 < p')
    (e0 : A * (A + 1 - (A - 1) * c + p) / (A + 1 + (A - 1) * c + p) = A' * (A' + 1 - (A' - 1) * c' + p') / (A' + 1 + (A' - 1) * c' + p'))
    (e1 : 2 * A * (A - 1 - (A + 1) * c) / (A + 1 + (A - 1) * c + p) = 2 * A' * (A' - 1 - (A' + 1) * c') / (A' + 1 + (A' - 1) * c' + p'))
    (e2 : A * (A + 1 - (A - 1) * c - p) / (A + 1 + (A - 1) * c + p) = A' * (A' + 1 - (A' - 1) * c' - p') / (A' + 1 + (A' - 1) * c' + p'))
    (e3 : -2 * (A - 1 + (A + 1) * c) / (A + 1 + (A - 1) * c + p) = -2 * (A' - 1 + (A' + 1) * c') / (A' + 1 + (A' - 1) * c' + p'))
    (e4 : (A + 1 + (A - 1) * c - p) / (A + 1 + (A - 1) * c + p) = (A' + 1 + (A' - 1) * c' - p') / (A' + 1 + (A' - 1) * c' + p')) :
    A = A' ∧ c = c' ∧ p = p' := by
  have d := lowShelf_den_pos hA h1 h2 hp
  have d' := lowShelf_den_pos hA' h1' h2' hp'
  obtain ⟨D, hD⟩ : ∃ D, D = A + 1 + (A - 1) * c + p := ⟨_, rfl⟩
  obtain ⟨D', hD'⟩ : ∃ D, D = A' + 1 + (A' - 1) * c' + p' := ⟨_, rfl⟩
  rw [← hD] at d e0 e1 e2 e3 e4
  rw [← hD'] at d' e0 e1 e2 e3 e4
  rw [div_eq_div_iff d.ne' d'.ne'] at e0 e1 e2 e3 e4
  -- values at the ends of the spectrum
  have s1 : (1 - c) * D' = (1 - c') * D := by linear_combination (1 / 4) * (e3 + e4) + (1 / 4) * (D' * hD - D * hD') * (-1)
  have s2 : A ^ 2 * (1 - c) * D' = A' ^ 2 * (1 - c') * D := by linear_combination (1 / 4) * (e0 + e1 + e2)
  have s3 : A * (1 + c) * D' = A' * (1 + c') * D := by linear_combination (1 / 4) * (e4 - e3) + (1 / 4) * (D' * hD - D * hD') * (-1)
  have f1 : A ^ 2 = A' ^ 2 := by
    have : (A ^ 2 - A' ^ 2) * ((1 - c) * D') = 0 := by linear_combination s2 - A' ^ 2 * s1
    have := (mul_eq_zero.mp this).resolve_right (mul_pos (by linarith) d').ne'
    linarith
  have f2 : A = A' := by nlinarith
  subst f2
  have s4 : (1 + c) * D' = (1 + c') * D := by
    refine mul_left_cancel₀ hA.ne' ?_
    linarith
  have f3 : D' = D := by linarith
  rw [f3] at s1
  have f4 := mul_right_cancel₀ d.ne' s1
  have f5 : c = c' := by linarith
  subst f5
  exact ⟨rfl, rfl, by linarith⟩

theorem shelf_product_sq (hv : ValidShelf sr f S) : (2 * sqrt (gainA db) * alphaS sr f (gainA db) S) ^ 2 =
    (1 - cos (angle sr f) ^ 2) * ((gainA db ^ 2 + 1) * (1 / S - 1) + 2 * gainA db) := by
  have hA := gainA_pos db
  have hq := hv.sqrt_arg_pos hA
  have e1 := Real.sq_sqrt hA.le
  have e2 := Real.sq_sqrt hq.le
  have e3 := Real.sin_sq_add_cos_sq (angle sr f)
  have e4 : sin (angle sr f) ^ 2 = 1 - cos (angle sr f) ^ 2 := by linarith
  unfold alphaS
  calc (2 * sqrt (gainA db) * (sin (angle sr f) / 2 * sqrt ((gainA db + 1 / gainA db) * (1 / S - 1) + 2))) ^ 2
      = sqrt (gainA db) ^ 2 * sin (angle sr f) ^ 2 * sqrt ((gainA db + 1 / gainA db) * (1 / S - 1) + 2) ^ 2 := by ring
    _ = _ := by
      rw [e1, e2, e4]
      have hS := hv.2.2.1
      field_simp

/-- **C143.** With a slope of one half a shelf has a factor in common in numerator and denominator: it is a first-order filter. -/
theorem C143_half_slope (h1 : 0 < f) (h2 : f < sr / 2) (s : LowShelf ℝ) (db : ℝ) :
    Implements (s.setCoefficients sr f db (1 / 2))
      (dbFactor (db / 2) * (1 + dbFactor (db / 2) * tan (angle sr f / 2)) / (dbFactor (db / 2) + tan (angle sr f / 2)))
      (dbFactor (db / 2) * (dbFactor (db / 2) * tan (angle sr f / 2) - 1) / (dbFactor (db / 2) + tan (angle sr f / 2))) 0
      ((tan (angle sr f / 2) - dbFactor (db / 2)) / (dbFactor (db / 2) + tan (angle sr f / 2))) 0 := by
  have hv : ValidShelf sr f (1 / 2) := ⟨h1, h2, by norm_num, by norm_num⟩
  have eA : dbFactor (db / 2) = gainA db := by unfold dbFactor gainA; congr 1; ring
  rw [eA]
  obtain ⟨w0, w1⟩ := angle_mem_Ioo hv.params
  obtain ⟨c1, c2⟩ := cos_lt_one_of_sin_pos hv.params.sin_pos
  have hA := gainA_pos db
  have hT : 0 < tan (angle sr f / 2) := tan_pos_of_pos_of_lt_pi_div_two (by linarith) (by linarith)
  have hC : 0 < cos (angle sr f / 2) := cos_pos_of_mem_Ioo ⟨by linarith, by linarith⟩
  have hc : cos (angle sr f) * (1 + tan (angle sr f / 2) ^ 2) = 1 - tan (angle sr f / 2) ^ 2 := by
    have k1 : cos (angle sr f) = 2 * cos (angle sr f / 2) ^ 2 - 1 := by rw [← cos_two_mul]; congr 1; ring
    have k2 := Real.sin_sq_add_cos_sq (angle sr f / 2)
    rw [tan_eq_sin_div_cos, k1]
    field_simp
    rw [show sin (angle sr f / 2) ^ 2 = 1 - cos (angle sr f / 2) ^ 2 by linarith]
    ring
  have hp0 := hv.product_pos (db := db)
  have hp2 := shelf_product_sq (db := db) hv
  obtain ⟨T, eT⟩ : ∃ T, T = tan (angle sr f / 2) := ⟨_, rfl⟩
  obtain ⟨A, eA'⟩ : ∃ A, A = gainA db := ⟨_, rfl⟩
  obtain ⟨p, ep⟩ : ∃ p, p = 2 * sqrt (gainA db) * alphaS sr f (gainA db) (1 / 2) := ⟨_, rfl⟩
  obtain ⟨c, ec⟩ : ∃ c, c = cos (angle sr f) := ⟨_, rfl⟩
  have hi := s.implements sr f db (1 / 2)
  rw [← ep, ← eA', ← ec] at hi
  rw [← eT, ← eA']
  rw [← ep] at hp0
  rw [← ep, ← ec, ← eA'] at hp2
  rw [← eT] at hT
  rw [← eA'] at hA
  rw [← ec, ← eT] at hc
  rw [← ec] at c1 c2
  have hT2 : 0 < 1 + T ^ 2 := by positivity
  have hcT : c = (1 - T ^ 2) / (1 + T ^ 2) := by rw [eq_div_iff hT2.ne', hc]
  have hp : p = (A + 1) * (2 * T) / (1 + T ^ 2) := by
    have k0 : 0 < (A + 1) * (2 * T) / (1 + T ^ 2) := by positivity
    have k1 : p ^ 2 = ((A + 1) * (2 * T) / (1 + T ^ 2)) ^ 2 := by
      rw [hp2, hcT]
      field_simp
      ring
    nlinarith
  have hd : A + 1 + (A - 1) * c + p = 2 * (A + T) * (1 + T) / (1 + T ^ 2) := by
    rw [hcT, hp]; field_simp; ring
  have hAT : 0 < A + T := by linarith
  have h1T : 0 < 1 + T := by linarith
  rw [hd, hp, hcT] at hi
  intro b x y
  rw [hi b x y, ← solvesDiff_cancel (g := (T - 1) / (1 + T))]
  refine iff_of_eq ?_
  congr 1 <;> (field_simp; ring)

theorem shelf_flat {A c p : ℝ} (hA : A = 1) (hp : 0 < p) {s : σ} (hs : Implements s
    (A * (A + 1 - (A - 1) * c + p) / (A + 1 + (A - 1) * c + p)) (2 * A * (A - 1 - (A + 1) * c) / (A + 1 + (A - 1) * c + p))
      (A * (A + 1 - (A - 1) * c - p) / (A + 1 + (A - 1) * c + p)) (-2 * (A - 1 + (A + 1) * c) / (A + 1 + (A - 1) * c + p))
      ((A + 1 + (A - 1) * c - p) / (A + 1 + (A - 1) * c + p))) {b : Build} {h : ℕ → ℝ} (hh : Responds b s unitImpulse h) :
    h 0 = 1 ∧ h 1 = 0 ∧ h 2 = 0 := by
  subst hA
  have hd : (1 : ℝ) + 1 + (1 - 1) * c + p ≠ 0 := by nlinarith
  obtain ⟨x0, x1, x2, -⟩ := ((hs _ _ _).mp hh).first_samples
  have y0 : h 0 = 1 := by rw [x0]; field_simp; ring
  have y1 : h 1 = 0 := by rw [x1, y0]; field_simp; ring
  refine ⟨y0, y1, ?_⟩
  rw [x2, y1, y0]; field_simp; ring

theorem lowShelf_steep (h : ValidShelf sr f S) (h' : ValidShelf sr' f' S') (s t : LowShelf ℝ)
    (g : SameStart 5 (s.setCoefficients sr f db S) (t.setCoefficients sr' f' db' S')) (hdb : db ≠ 0) (hS : S ≠ 1 / 2) :
    db = db' ∧ f / sr = f' / sr' ∧ S = S' := by
  have hA := gainA_pos db
  have hA' := gainA_pos db'
  obtain ⟨c1, c2⟩ := cos_lt_one_of_sin_pos h.params.sin_pos
  obtain ⟨c1', c2'⟩ := cos_lt_one_of_sin_pos h'.params.sin_pos
  have S0 := h.2.2.1
  have S0' := h'.2.2.1
  have hne : (gainA db + 1) ^ 2 * (1 - cos (angle sr f) ^ 2) - (2 * sqrt (gainA db) * alphaS sr f (gainA db) S) ^ 2 ≠ 0 := by
    rw [shelf_product_sq h]
    have e : (gainA db + 1) ^ 2 * (1 - cos (angle sr f) ^ 2) - (1 - cos (angle sr f) ^ 2) * ((gainA db ^ 2 + 1) * (1 / S - 1) + 2 * gainA db) =
        (1 - cos (angle sr f)) * (1 + cos (angle sr f)) * (gainA db ^ 2 + 1) * (2 - 1 / S) := by ring
    rw [e]
    refine mul_ne_zero (mul_ne_zero (mul_ne_zero (by linarith) (by linarith)) (by positivity)) fun hc => hS ?_
    field_simp at hc
    linarith
  obtain ⟨e0, e1, e2, e3, e4⟩ := (s.implements sr f db S).five (t.implements sr' f' db' S') g
    (irreducible_shelf hA (gainA_ne_one_of_ne hdb) c1 c2 h.product_pos hne)
  obtain ⟨f1, f2, f3⟩ := shelf_inj hA c1 c2 h.product_pos hA' c1' c2' h'.product_pos e0 e1 e2 e3 e4
  obtain ⟨g1, g2⟩ := ratio_of_cos h.params h'.params f2
  refine ⟨gainA_inj f1, g2, ?_⟩
  have k := congrArg (· ^ 2) f3
  simp only [shelf_product_sq h, shelf_product_sq h'] at k
  rw [← f2, ← f1] at k
  have hs : (1 - cos (angle sr f) ^ 2) ≠ 0 := by
    have : 0 < (1 - cos (angle sr f)) * (1 + cos (angle sr f)) := mul_pos (by linarith) (by linarith)
    nlinarith
  have k1 := mul_left_cancel₀ hs k
  have k2 : (gainA db ^ 2 + 1) * (1 / S - 1) = (gainA db ^ 2 + 1) * (1 / S' - 1) := by linarith
  have k3 := mul_left_cancel₀ (by positivity) k2
  have k4 : 1 / S = 1 / S' := by linarith
  field_simp at k4
  exact k4.symm

theorem lowShelf_identified (h : ValidShelf sr f S) (h' : ValidShelf sr' f' S') (s t : LowShelf ℝ)
    (g : SameStart 5 (s.setCoefficients sr f db S) (t.setCoefficients sr' f' db' S')) (hdb : db ≠ 0) :
    db = db' ∧ f / sr = f' / sr' ∧ S = S' := by
  by_cases hS : S = 1 / 2
  swap
  · exact lowShelf_steep h h' s t g hdb hS
  subst hS
  have i := C143_half_slope h.1 h.2.1 s db
  have eA : dbFactor (db / 2) = gainA db := by unfold dbFactor gainA; congr 1; ring
  have eA' : dbFactor (db' / 2) = gainA db' := by unfold dbFactor gainA; congr 1; ring
  rw [eA] at i
  have hA := gainA_pos db
  have hA' := gainA_pos db'
  obtain ⟨w0, w1⟩ := angle_mem_Ioo h.params
  obtain ⟨w0', w1'⟩ := angle_mem_Ioo h'.params
  have hT : 0 < tan (angle sr f / 2) := tan_pos_of_pos_of_lt_pi_div_two (by linarith) (by linarith)
  have hT' : 0 < tan (angle sr' f' / 2) := tan_pos_of_pos_of_lt_pi_div_two (by linarith) (by linarith)
  have hd : 0 < gainA db + tan (angle sr f / 2) := by linarith
  have hd' : 0 < gainA db' + tan (angle sr' f' / 2) := by linarith
  have hi : gainA db * (gainA db * tan (angle sr f / 2) - 1) / (gainA db + tan (angle sr f / 2)) ≠
      (tan (angle sr f / 2) - gainA db) / (gainA db + tan (angle sr f / 2)) *
        (gainA db * (1 + gainA db * tan (angle sr f / 2)) / (gainA db + tan (angle sr f / 2))) := by
    intro hc
    field_simp at hc
    have : 2 * tan (angle sr f / 2) * ((gainA db - 1) * (gainA db + 1)) = 0 := by linear_combination hc
    have := (mul_eq_zero.mp this).resolve_left (by positivity)
    exact gainA_ne_one_of_ne hdb (by linarith [(mul_eq_zero.mp this).resolve_right (by linarith)])
  by_cases hdb' : db' = 0
  · exfalso
    subst hdb'
    obtain ⟨b, b', x, x', hx, hx', he⟩ := g
    obtain ⟨y0, y1, y2⟩ := shelf_flat gainA_zero h'.product_pos (t.implements sr' f' 0 S') hx'
    obtain ⟨z0, z1, -⟩ := ((i _ _ _).mp hx).first_samples
    have e1 := he 1 (by norm_num)
    rw [y1, z1, z0] at e1
    exact hi (by linarith)
  by_cases hS' : S' = 1 / 2
  swap
  · obtain ⟨e1, e2, e3⟩ := lowShelf_steep h' h t s g.symm hdb' hS'
    exact absurd e3 hS'
  subst hS'
  have i' := C143_half_slope h'.1 h'.2.1 t db'
  rw [eA'] at i'
  obtain ⟨e0, e1, e2⟩ := i.three i' (g.mono (by norm_num)) hi
  have k0 : gainA db = gainA db' ∧ tan (angle sr f / 2) = tan (angle sr' f' / 2) := by
    generalize tan (angle sr f / 2) = T at *
    generalize tan (angle sr' f' / 2) = T' at *
    generalize gainA db = A at *
    generalize gainA db' = A' at *
    rw [div_eq_div_iff hd.ne' hd'.ne'] at e0 e1 e2
    have s1 : T * (A' + T') = T' * (A + T) := by linear_combination e2 / 2
    have s2 : A ^ 2 * (T * (A' + T')) = A' ^ 2 * (T' * (A + T)) := by linear_combination (e0 + e1) / 2
    rw [s1] at s2
    have s3 := mul_right_cancel₀ (mul_pos hT' hd).ne' s2
    have s4 : A = A' := by nlinarith
    subst s4
    exact ⟨rfl, mul_left_cancel₀ hA.ne' (by linarith)⟩
  obtain ⟨k1, k2⟩ := k0
  have k3 := injOn_tan ⟨by linarith, by linarith⟩ ⟨by linarith, by linarith⟩ k2
  exact ⟨gainA_inj k1, (ratio_of_cos h.params h'.params (by congr 1; linarith)).2, rfl⟩

theorem mirror_unitImpulse : mirror unitImpulse = unitImpulse := by
  funext n
  cases n <;> simp [mirror, unitImpulse]

theorem SameStart.mirrored {σ' τ' : Type} [Processor σ' ℝ] [Processor τ' ℝ] {s : σ} {t : τ} {s' : σ'} {t' : τ'} (hs : IsMirror s' s)
    (ht : IsMirror t' t) {k : ℕ} (h : SameStart k s t) : SameStart k s' t' := by
  obtain ⟨b, b', x, x', hx, hx', he⟩ := h
  have inv : ∀ u : ℕ → ℝ, mirror (mirror u) = u := fun u => by
    funext n
    simp only [mirror]
    rw [← mul_assoc, ← mul_pow]
    norm_num
  refine ⟨b, b', mirror x, mirror x', (hs b _ _).mpr ?_, (ht b' _ _).mpr ?_, fun n hn => ?_⟩
  · rw [mirror_unitImpulse, inv]; exact hx
  · rw [mirror_unitImpulse, inv]; exact hx'
  · simp only [mirror, he n hn]

/-- **C143.** Both shelves: the gain, and unless that is 0 dB the other parameters too. -/
theorem C143_shelves (h : ValidShelf sr f S) (h' : ValidShelf sr' f' S') :
    (∀ s t : LowShelf ℝ, SameStart 5 (s.setCoefficients sr f db S) (t.setCoefficients sr' f' db' S') →
      db = db' ∧ (db ≠ 0 → f / sr = f' / sr' ∧ S = S')) ∧
    (∀ s t : HighShelf ℝ, SameStart 5 (s.setCoefficients sr f db S) (t.setCoefficients sr' f' db' S') →
      db = db' ∧ (db ≠ 0 → f / sr = f' / sr' ∧ S = S')) := by
  have low : ∀ {sr f db S sr' f' db' S' : ℝ}, ValidShelf sr f S → ValidShelf sr' f' S' → ∀ s t : LowShelf ℝ,
      SameStart 5 (s.setCoefficients sr f db S) (t.setCoefficients sr' f' db' S') → db = db' ∧ (db ≠ 0 → f / sr = f' / sr' ∧ S = S') := by
    intro sr f db S sr' f' db' S' h h' s t g
    by_cases hdb : db = 0
    · refine ⟨?_, fun hc => absurd hdb hc⟩
      by_contra hc
      exact hc (lowShelf_identified h' h t s g.symm (fun h0 => hc (by rw [hdb, h0]))).1.symm
    · obtain ⟨e1, e2⟩ := lowShelf_identified h h' s t g hdb
      exact ⟨e1, fun _ => e2⟩
  refine ⟨low h h', fun s t g => ?_⟩
  have flip : ∀ {sr f S : ℝ}, ValidShelf sr f S → sr ≠ 0 ∧ ValidShelf sr (sr / 2 - f) S := fun h => by
    obtain ⟨h1, h2, h3, h4⟩ := h
    exact ⟨by linarith, by linarith, by linarith, h3, h4⟩
  obtain ⟨k0, k⟩ := flip h
  obtain ⟨k0', k'⟩ := flip h'
  have m := (C114_rbj k0 (sr / 2 - f) 0 db S).2.2.2.2.2.2 LowShelf.new s
  have m' := (C114_rbj k0' (sr' / 2 - f') 0 db' S').2.2.2.2.2.2 LowShelf.new t
  rw [sub_sub_cancel] at m m'
  obtain ⟨e1, e2⟩ := low k k' _ _ (g.mirrored m m')
  refine ⟨e1, fun hdb => ?_⟩
  obtain ⟨e3, e4⟩ := e2 hdb
  refine ⟨?_, e4⟩
  rw [sub_div, sub_div, div_right_comm, div_self k0, div_right_comm, div_self k0'] at e3
  linarith

/-! ## States -/

theorem ImplementsFrom.two {s : σ} {t : τ} {c0 c1 d0 d1 b0 b1 b2 a1 a2 : ℝ} (hs : ImplementsFrom s c0 c1 b0 b1 b2 a1 a2)
    (ht : ImplementsFrom t d0 d1 b0 b1 b2 a1 a2) (b b' : Build) {x y : ℕ → ℝ} (hx : Responds b s (fun _ => 0) x)
    (hy : Responds b' t (fun _ => 0) y) : (x 0 = y 0 ∧ x 1 = y 1) ↔ (c0 = d0 ∧ c1 = d1) := by
  have x0 := (hs _ _ _).mp hx 0
  have x1 := (hs _ _ _).mp hx 1
  have y0 := (ht _ _ _).mp hy 0
  have y1 := (ht _ _ _).mp hy 1
  simp [lag] at x0 x1 y0 y1
  constructor
  · rintro ⟨h0, h1⟩
    rw [x0, y0] at h0
    rw [x1, y1, x0, y0, h0] at h1
    exact ⟨h0, by linarith⟩
  · rintro ⟨h0, h1⟩
    rw [x1, y1, x0, y0, h0, h1]
    exact ⟨rfl, rfl⟩

/-- **C143.** Two filters with the same coefficients have the same future exactly if they say the same during two samples of silence. -/
theorem C143_silence (b b' : Build) {x y : ℕ → ℝ} :
    (∀ s t : Biquad1 ℝ, s.b0 = t.b0 → s.b1 = t.b1 → s.b2 = t.b2 → s.a1 = t.a1 → s.a2 = t.a2 → Responds b s (fun _ => 0) x →
      Responds b' t (fun _ => 0) y → (SameFuture (T := ℝ) s t ↔ x 0 = y 0 ∧ x 1 = y 1)) ∧
    (∀ s t : Biquad2 ℝ, s.b0 = t.b0 → s.b1 = t.b1 → s.b2 = t.b2 → s.a1 = t.a1 → s.a2 = t.a2 → Responds b s (fun _ => 0) x →
      Responds b' t (fun _ => 0) y → (SameFuture (T := ℝ) s t ↔ x 0 = y 0 ∧ x 1 = y 1)) ∧
    (∀ s t : Biquad2 ℝ, s.b0 = t.b0 → s.b1 = t.b1 → s.b2 = t.b2 → s.a1 = t.a1 → s.a2 = t.a2 → (SameFuture (T := ℝ) s t ↔ s.z1 = t.z1 ∧ s.z2 = t.z2)) := by
  have key : ∀ {σ : Type} [Processor σ ℝ] (s t : σ) {c0 c1 d0 d1 b0 b1 b2 a1 a2 : ℝ}, ImplementsFrom s c0 c1 b0 b1 b2 a1 a2 →
      ImplementsFrom t d0 d1 b0 b1 b2 a1 a2 → ∀ {b b' : Build} {x y : ℕ → ℝ}, Responds b s (fun _ => 0) x →
      Responds b' t (fun _ => 0) y → (SameFuture (T := ℝ) s t ↔ x 0 = y 0 ∧ x 1 = y 1) := by
    intro σ _ s t c0 c1 d0 d1 b0 b1 b2 a1 a2 hs ht b b' x y hx hy
    constructor
    · intro h
      have := ((h b' _ _).mp ((hs b' _ _).mpr ((hs b _ _).mp hx))).unique hy
      rw [this]
      exact ⟨rfl, rfl⟩
    · intro h
      obtain ⟨e0, e1⟩ := (hs.two ht b b' hx hy).mp h
      subst e0 e1
      exact fun b x y => (hs b x y).trans (ht b x y).symm
  refine ⟨fun s t h0 h1 h2 h3 h4 => ?_, fun s t h0 h1 h2 h3 h4 => ?_, fun s t h0 h1 h2 h3 h4 => ?_⟩
  · have := t.implementsFrom
    rw [← h0, ← h1, ← h2, ← h3, ← h4] at this
    exact key s t s.implementsFrom this
  · have := t.implementsFrom
    rw [← h0, ← h1, ← h2, ← h3, ← h4] at this
    exact key s t s.implementsFrom this
  · have ht := t.implementsFrom
    have hs := s.implementsFrom
    rw [← h0, ← h1, ← h2, ← h3, ← h4] at ht
    constructor
    · intro h
      obtain ⟨x, hx⟩ := ImplementsFrom.total hs ⟨true⟩ (fun _ => 0)
      exact (hs.two ht ⟨true⟩ ⟨true⟩ hx ((h _ _ _).mp hx)).mp ⟨rfl, rfl⟩
    · rintro ⟨e0, e1⟩
      rw [← e0, ← e1] at ht
      exact fun b x y => (hs b x y).trans (ht b x y).symm

/-! ## Analysers -/

theorem Responds.start {s : σ} {b : Build} {x y : ℕ → ℝ} (h : Responds b s x y) :
    ∃ s1 s2, Processor.process b s (x 0) = .ok (s1, y 0) ∧ Processor.process b s1 (x 1) = .ok (s2, y 1) := by
  obtain ⟨st, rfl, hs⟩ := h
  exact ⟨st 1, st 2, hs 0, hs 1⟩

theorem LeakyIntegrator.impulse {s : LeakyIntegrator ℝ} {b : Build} {h : ℕ → ℝ} (H : Responds b s.clear unitImpulse h) :
    h 0 = 1 - s.getAlpha := by
  obtain ⟨s1, s2, h1, -⟩ := H.start
  have e := congrArg Prod.snd (Except.ok.inj h1)
  simp only [LeakyIntegrator.process, LeakyIntegrator.clear, unitImpulse, if_true, real_add, real_mul, real_sub, real_zero] at e
  rw [LeakyIntegrator.getAlpha, ← e]
  ring

theorem PeakEnvDetector.impulse {s : PeakEnvDetector ℝ} {b : Build} {h : ℕ → ℝ} (ha : s.getAttackGain ≤ 1) (H : Responds b s.clear unitImpulse h) :
    h 0 = 1 - s.getAttackGain ∧ h 1 = s.getReleaseGain * (1 - s.getAttackGain) := by
  obtain ⟨s1, s2, h1, h2⟩ := H.start
  have e := Except.ok.inj h1
  have e2 := Except.ok.inj h2
  simp only [PeakEnvDetector.process, PeakEnvDetector.clear, unitImpulse, if_true, real_add, real_mul, real_sub, real_zero, real_abs, real_lt,
    abs_one, zero_lt_one, Prod.mk.injEq] at e
  obtain ⟨rfl, e0⟩ := e
  have hn : ¬ (1 + s.attack_gain * (0 - 1) < 0) := by
    unfold PeakEnvDetector.getAttackGain at ha
    linarith
  simp only [PeakEnvDetector.process, unitImpulse, one_ne_zero, if_false, real_add, real_mul, real_sub, real_abs, real_lt, abs_zero,
    hn, Prod.mk.injEq] at e2
  unfold PeakEnvDetector.getAttackGain PeakEnvDetector.getReleaseGain
  exact ⟨by rw [← e0]; ring, by rw [← e2.2]; ring⟩

theorem RmsEnvDetector.impulse {s : RmsEnvDetector ℝ} {b : Build} {h : ℕ → ℝ} (ha : s.getAttackGain ≤ 1) (H : Responds b s.clear unitImpulse h) :
    h 0 = sqrt (1 - s.getAttackGain) ∧ h 1 = sqrt (s.getReleaseGain * (1 - s.getAttackGain)) := by
  obtain ⟨s1, s2, h1, h2⟩ := H.start
  have e := Except.ok.inj h1
  have e2 := Except.ok.inj h2
  simp only [RmsEnvDetector.process, RmsEnvDetector.clear, unitImpulse, if_true, real_add, real_mul, real_sub, real_zero, real_lt, real_sqrt,
    mul_one, zero_lt_one, Prod.mk.injEq] at e
  obtain ⟨rfl, e0⟩ := e
  have hn : ¬ (1 + s.attack_gain * (0 - 1) < 0) := by
    unfold RmsEnvDetector.getAttackGain at ha
    linarith
  simp only [RmsEnvDetector.process, unitImpulse, one_ne_zero, if_false, real_add, real_mul, real_sub, real_lt, real_sqrt, mul_zero,
    hn, Prod.mk.injEq] at e2
  unfold RmsEnvDetector.getAttackGain RmsEnvDetector.getReleaseGain
  exact ⟨by rw [← e0]; congr 1; ring, by rw [← e2.2]; congr 1; ring⟩

/-- **C143.** The gain of a leaky integrator follows from one sample of the answer to an impulse, the gains of a detector from two. -/
theorem C143_analysers :
    (∀ s t : LeakyIntegrator ℝ, SameStart 1 s.clear t.clear → s.getAlpha = t.getAlpha) ∧
    (∀ s t : PeakEnvDetector ℝ, s.getAttackGain < 1 → t.getAttackGain < 1 → SameStart 2 s.clear t.clear →
      s.getAttackGain = t.getAttackGain ∧ s.getReleaseGain = t.getReleaseGain) ∧
    (∀ s t : RmsEnvDetector ℝ, s.getAttackGain < 1 → t.getAttackGain < 1 → 0 ≤ s.getReleaseGain → 0 ≤ t.getReleaseGain →
      SameStart 2 s.clear t.clear → s.getAttackGain = t.getAttackGain ∧ s.getReleaseGain = t.getReleaseGain) := by
  refine ⟨fun s t h => ?_, fun s t hs ht h => ?_, fun s t hs ht rs rt h => ?_⟩
  · obtain ⟨b, b', x, x', hx, hx', he⟩ := h
    have := he 0 (by norm_num)
    rw [LeakyIntegrator.impulse hx, LeakyIntegrator.impulse hx'] at this
    linarith
  · obtain ⟨b, b', x, x', hx, hx', he⟩ := h
    obtain ⟨x0, x1⟩ := PeakEnvDetector.impulse hs.le hx
    obtain ⟨y0, y1⟩ := PeakEnvDetector.impulse ht.le hx'
    have e0 := he 0 (by norm_num)
    have e1 := he 1 (by norm_num)
    rw [x0, y0] at e0
    rw [x1, y1, ← e0] at e1
    exact ⟨by linarith, mul_right_cancel₀ (by linarith) e1⟩
  · obtain ⟨b, b', x, x', hx, hx', he⟩ := h
    obtain ⟨x0, x1⟩ := RmsEnvDetector.impulse hs.le hx
    obtain ⟨y0, y1⟩ := RmsEnvDetector.impulse ht.le hx'
    have e0 := he 0 (by norm_num)
    have e1 := he 1 (by norm_num)
    have ps : 0 < 1 - s.getAttackGain := by linarith
    have pt : 0 < 1 - t.getAttackGain := by linarith
    rw [x0, y0, sqrt_inj ps.le pt.le] at e0
    rw [x1, y1, sqrt_inj (mul_nonneg rs ps.le) (mul_nonneg rt pt.le), ← e0] at e1
    exact ⟨by linarith, mul_right_cancel₀ ps.ne' e1⟩

theorem exp_length_inj {n m : ℝ} (hn : 0 < n) (hm : 0 < m) (h : exp (-1 / n) = exp (-1 / m)) : n = m := by
  have h1 := exp_injective h
  rw [div_eq_div_iff hn.ne' hm.ne'] at h1
  linarith

/-- **C143.** So do the attack and release lengths of a detector, whatever it was before. -/
theorem C143_lengths {a r a' r' : ℝ} (ha : 0 < a) (hr : 0 < r) (ha' : 0 < a') (hr' : 0 < r') :
    (∀ s t : PeakEnvDetector ℝ, SameStart 2 ((s.setAttack a).setRelease r).clear ((t.setAttack a').setRelease r').clear → a = a' ∧ r = r') ∧
    (∀ s t : RmsEnvDetector ℝ, SameStart 2 ((s.setAttack a).setRelease r).clear ((t.setAttack a').setRelease r').clear → a = a' ∧ r = r') := by
  obtain ⟨-, p, q⟩ := C143_analysers
  refine ⟨fun s t h => ?_, fun s t h => ?_⟩
  · have g : ∀ (s : PeakEnvDetector ℝ) {a r : ℝ}, 0 < a → 0 < r → ((s.setAttack a).setRelease r).getAttackGain = exp (-1 / a) ∧
        ((s.setAttack a).setRelease r).getReleaseGain = exp (-1 / r) := fun s a r ha hr =>
      ⟨((C49_independent r 0).1 (s.setAttack a)).2.1.trans ((C49_real a ha).2.1 s).1, ((C49_real r hr).2.1 _).2⟩
    obtain ⟨e1, e2⟩ := p _ _ (by rw [(g s ha hr).1]; exact (C49_real a ha).1.2) (by rw [(g t ha' hr').1]; exact (C49_real a' ha').1.2) h
    rw [(g s ha hr).1, (g t ha' hr').1] at e1
    rw [(g s ha hr).2, (g t ha' hr').2] at e2
    exact ⟨exp_length_inj ha ha' e1, exp_length_inj hr hr' e2⟩
  · have g : ∀ (s : RmsEnvDetector ℝ) {a r : ℝ}, 0 < a → 0 < r → ((s.setAttack a).setRelease r).getAttackGain = exp (-1 / a) ∧
        ((s.setAttack a).setRelease r).getReleaseGain = exp (-1 / r) := fun s a r ha hr =>
      ⟨((C49_independent r 0).2 (s.setAttack a)).2.1.trans ((C49_real a ha).2.2 s).1, ((C49_real r hr).2.2 _).2⟩
    obtain ⟨e1, e2⟩ := q _ _ (by rw [(g s ha hr).1]; exact (C49_real a ha).1.2) (by rw [(g t ha' hr').1]; exact (C49_real a' ha').1.2)
      (by rw [(g s ha hr).2]; exact (exp_pos _).le) (by rw [(g t ha' hr').2]; exact (exp_pos _).le) h
    rw [(g s ha hr).1, (g t ha' hr').1] at e1
    rw [(g s ha hr).2, (g t ha' hr').2] at e2
    exact ⟨exp_length_inj ha ha' e1, exp_length_inj hr hr' e2⟩

/-! ## Delay lines -/

/-- **C143.** The answer to an impulse up to the delay tells the delay of a new line, whatever its maximum. -/
theorem C143_delays [Target] {b b' : Build} {m m' : ℕ} (hm : Allocatable ℝ m) (hm' : Allocatable ℝ m') {h h' : ℕ → ℝ} :
    (∀ (d d' : ℕ) (s t : Delay ℝ), Delay.new b d m = .ok s → Delay.new b' d' m' = .ok t → Responds b s unitImpulse h → Responds b' t unitImpulse h' →
      h (min d m) = h' (min d m) → min d m = min d' m') ∧
    (∀ (d d' : ℝ) (s t : LinearDelay ℝ ℝ), LinearDelay.new b d m = .ok s → LinearDelay.new b' d' m' = .ok t → Responds b s unitImpulse h →
      Responds b' t unitImpulse h' → (∀ n : ℕ, n ≤ s.getDelay + 1 → h n = h' n) → s.getDelay = t.getDelay) := by
  refine ⟨fun d d' s t hs ht hh hh' he => ?_, fun d d' s t hs ht hh hh' he => ?_⟩
  · obtain ⟨s1, k1, r1⟩ := C07_new_delay_is_pure_delay (T := ℝ) (b := b) (d := d) hm
    obtain ⟨t1, k2, r2⟩ := C07_new_delay_is_pure_delay (T := ℝ) (b := b') (d := d') hm'
    rw [hs] at k1
    rw [ht] at k2
    cases k1
    cases k2
    rw [(r1 _ _).mp hh, (r2 _ _).mp hh'] at he
    simp only [le_refl, if_true, Nat.sub_self, unitImpulse, real_zero] at he
    split_ifs at he with c1 c2
    · omega
    · norm_num at he
    · norm_num at he
  · obtain ⟨s1, k1, g1, r1⟩ := C20_new_interpolates (b := b) hm d
    obtain ⟨t1, k2, g2, r2⟩ := C20_new_interpolates (b := b') hm' d'
    rw [hs] at k1
    rw [ht] at k2
    cases k1
    cases k2
    rw [g1] at he
    rw [g1, g2]
    have n1 : 0 ≤ max 0 (min d m) := le_max_left _ _
    have n2 : 0 ≤ max 0 (min d' m') := le_max_left _ _
    rw [(r1 _ _).mp hh, (r2 _ _).mp hh'] at he
    generalize max 0 (min d m) = u at *
    generalize max 0 (min d' m') = v at *
    have val : ∀ (u : ℝ) (n : ℕ), interp u [] unitImpulse n = if n = ⌊u⌋₊ then 1 - (u - ⌊u⌋₊) else if n = ⌊u⌋₊ + 1 then u - ⌊u⌋₊ else 0 := by
      intro u n
      have dl : ∀ e : ℕ, delayedBy e [] unitImpulse n = if n = e then (1 : ℝ) else 0 := by
        intro e
        unfold delayedBy unitImpulse
        by_cases h1 : n = e
        · simp [h1]
        · by_cases h2 : e ≤ n
          · rw [if_pos h2, if_neg (by omega), if_neg h1]
          · rw [if_neg h2, if_neg h1]; simp
      unfold interp
      rw [dl, dl]
      by_cases h1 : n = ⌊u⌋₊
      · rw [if_pos h1, if_neg (by omega), if_pos h1]; ring
      · rw [if_neg h1, if_neg h1]
        split_ifs <;> ring
    have f1 := Nat.floor_le n1
    have f2 := Nat.lt_floor_add_one u
    have f3 := Nat.floor_le n2
    have f4 := Nat.lt_floor_add_one v
    have e0 := he ⌊u⌋₊ (by linarith)
    have e1 := he (⌊u⌋₊ + 1) (by push_cast; linarith)
    rw [val, val, if_pos rfl] at e0
    rw [val, val, if_neg (by omega), if_pos rfl] at e1
    by_cases hc : ⌊u⌋₊ = ⌊v⌋₊
    · rw [if_pos hc, hc] at e0
      linarith
    · exfalso
      rw [if_neg hc] at e0
      by_cases hc' : ⌊u⌋₊ = ⌊v⌋₊ + 1
      · rw [if_neg (by omega), if_neg (by omega)] at e1
        rw [if_pos hc'] at e0
        linarith
      · rw [if_neg hc'] at e0
        linarith

/-! ## Examples -/

/-- Two low-pass filters at 44.1 kHz that differ only in `q` differ within the first five samples. -/
example : ¬ SameStart 5 ((LowPass.new : LowPass ℝ).setCoefficients 44100 1000 1) ((LowPass.new : LowPass ℝ).setCoefficients 44100 1000 2) := fun h => by
  have := ((C143_rbj (⟨by norm_num, by norm_num, by norm_num⟩ : ValidParams 44100 1000 1)
    (⟨by norm_num, by norm_num, by norm_num⟩ : ValidParams 44100 1000 2)).1 _ _ h).2
  norm_num at this

/-- The same filter at twice the rate and frequency cannot be told apart. -/
example : SameStart 5 ((LowPass.new : LowPass ℝ).setCoefficients 44100 1000 1) ((LowPass.new : LowPass ℝ).setCoefficients 88200 2000 1) := by
  have e := (C115_exact (c := 2) (by norm_num) 44100 1000 1 0 1).1 (LowPass.new : LowPass ℝ)
  norm_num at e
  rw [e]
  obtain ⟨y, hy⟩ := NeverPanics.responds (fun _ _ _ => ⟨_, _, rfl⟩) ⟨true⟩ ((LowPass.new : LowPass ℝ).setCoefficients 44100 1000 1) unitImpulse
  exact ⟨⟨true⟩, ⟨true⟩, y, y, hy, hy, fun _ _ => rfl⟩

/-- Shelves of 6 dB with slopes 1/2 and 1 differ, although the first is a first-order filter. -/
example (s t : LowShelf ℝ) : ¬ SameStart 5 (s.setCoefficients 48000 500 6 (1 / 2)) (t.setCoefficients 48000 500 6 1) := fun h => by
  have := (((C143_shelves (⟨by norm_num, by norm_num, by norm_num, by norm_num⟩ : ValidShelf 48000 500 (1 / 2))
    (⟨by norm_num, by norm_num, by norm_num, by norm_num⟩ : ValidShelf 48000 500 1)).1 s t h).2 (by norm_num)).2
  norm_num at this

/-- An irreducible fraction; adding the factor `1 + z/2` makes a reducible one. -/
example : Irreducible2 1 0 0 (-1 / 2) (1 / 4) ∧ ¬ Irreducible2 1 (1 / 2) 0 1 (1 / 4) := by
  unfold Irreducible2; norm_num

/-- Two states of a biquad with the same coefficients and a different future. -/
example : ¬ SameFuture (T := ℝ) ({ (Biquad2.new : Biquad2 ℝ) with z2 := 1 } : Biquad2 ℝ) Biquad2.new := fun h => by
  have := (((C143_silence ⟨true⟩ ⟨true⟩ (x := fun _ => 0) (y := fun _ => 0)).2.2 { (Biquad2.new : Biquad2 ℝ) with z2 := 1 } Biquad2.new
    rfl rfl rfl rfl rfl).mp h).2
  norm_num [Biquad2.new] at this

/-- Detectors with an attack of 10 and of 20 samples. -/
example (s t : PeakEnvDetector ℝ) : ¬ SameStart 2 ((s.setAttack 10).setRelease 100).clear ((t.setAttack 20).setRelease 100).clear := fun h => by
  have := ((C143_lengths (by norm_num) (by norm_num) (by norm_num) (by norm_num)).1 s t h).1
  norm_num at this

end Rasp
