import Verif.Lemmas.RbjReal

/-!
# C32 (rbj), C38–C44: the cookbook filters in exact arithmetic

Every statement is about `s.setCoefficients ..` for an arbitrary earlier state `s`.
-/

namespace Rasp
open FloatOps Filter

/-- The ranges are not empty: 1 kHz at 48 kHz, q = 1/√2-ish, slope 1/2. -/
example : ValidParams 48000 1000 0.7 ∧ ValidShelf 48000 1000 0.5 := by
  unfold ValidParams ValidShelf; norm_num

/-! ## Shorthands for "this filter with these parameters" -/

section
variable {sr f q S : ℝ}

/-- The common denominator is not zero. -/
theorem ValidParams.den (h : ValidParams sr f q) : (1 : ℝ) + alphaQ sr f q ≠ 0 := by
  have := h.alphaQ_pos; positivity

theorem ValidParams.stableQ (h : ValidParams sr f q) :
    StablePair (-2 * Real.cos (angle sr f) / (1 + alphaQ sr f q)) ((1 - alphaQ sr f q) / (1 + alphaQ sr f q)) :=
  h.stable h.alphaQ_pos

theorem ValidParams.peak_pos (h : ValidParams sr f q) (db : ℝ) : 0 < alphaQ sr f q / gainA db :=
  div_pos h.alphaQ_pos (gainA_pos db)

theorem ValidParams.peak_den (h : ValidParams sr f q) (db : ℝ) : (1 : ℝ) + alphaQ sr f q / gainA db ≠ 0 := by
  have := h.peak_pos db; positivity

theorem ValidParams.stablePeak (h : ValidParams sr f q) (db : ℝ) :
    StablePair (-2 * Real.cos (angle sr f) / (1 + alphaQ sr f q / gainA db))
      ((1 - alphaQ sr f q / gainA db) / (1 + alphaQ sr f q / gainA db)) := h.stable (h.peak_pos db)

theorem ValidShelf.low_den (h : ValidShelf sr f S) (db : ℝ) : gainA db + 1 + (gainA db - 1) * Real.cos (angle sr f) +
    2 * Real.sqrt (gainA db) * alphaS sr f (gainA db) S ≠ 0 :=
  (lowShelf_den_pos (gainA_pos db) (cos_lt_one_of_sin_pos h.params.sin_pos).1 (cos_lt_one_of_sin_pos h.params.sin_pos).2
    h.product_pos).ne'

theorem ValidShelf.high_den (h : ValidShelf sr f S) (db : ℝ) : gainA db + 1 - (gainA db - 1) * Real.cos (angle sr f) +
    2 * Real.sqrt (gainA db) * alphaS sr f (gainA db) S ≠ 0 :=
  (highShelf_den_pos (gainA_pos db) (cos_lt_one_of_sin_pos h.params.sin_pos).1 (cos_lt_one_of_sin_pos h.params.sin_pos).2
    h.product_pos).ne'

theorem ValidShelf.stableLow (h : ValidShelf sr f S) (db : ℝ) : StablePair
    (-2 * (gainA db - 1 + (gainA db + 1) * Real.cos (angle sr f)) /
      (gainA db + 1 + (gainA db - 1) * Real.cos (angle sr f) + 2 * Real.sqrt (gainA db) * alphaS sr f (gainA db) S))
    ((gainA db + 1 + (gainA db - 1) * Real.cos (angle sr f) - 2 * Real.sqrt (gainA db) * alphaS sr f (gainA db) S) /
      (gainA db + 1 + (gainA db - 1) * Real.cos (angle sr f) + 2 * Real.sqrt (gainA db) * alphaS sr f (gainA db) S)) :=
  lowShelf_stable (gainA_pos db) (cos_lt_one_of_sin_pos h.params.sin_pos).1 (cos_lt_one_of_sin_pos h.params.sin_pos).2
    (h.product_pos (db := db))

theorem ValidShelf.stableHigh (h : ValidShelf sr f S) (db : ℝ) : StablePair
    (2 * (gainA db - 1 - (gainA db + 1) * Real.cos (angle sr f)) /
      (gainA db + 1 - (gainA db - 1) * Real.cos (angle sr f) + 2 * Real.sqrt (gainA db) * alphaS sr f (gainA db) S))
    ((gainA db + 1 - (gainA db - 1) * Real.cos (angle sr f) - 2 * Real.sqrt (gainA db) * alphaS sr f (gainA db) S) /
      (gainA db + 1 - (gainA db - 1) * Real.cos (angle sr f) + 2 * Real.sqrt (gainA db) * alphaS sr f (gainA db) S)) :=
  highShelf_stable (gainA_pos db) (cos_lt_one_of_sin_pos h.params.sin_pos).1 (cos_lt_one_of_sin_pos h.params.sin_pos).2
    (h.product_pos (db := db))

end

/-! ## C32 -/

/-- **C32**, rbj filters. The range hypothesis only excludes a division by `a0 = 0`, which `ℝ` totalises. -/
theorem C32_rbj {sr f q : ℝ} (h : ValidParams sr f q) :
    (∀ s : LowPass ℝ, IsLinear (s.setCoefficients sr f q) ∧ IsTimeInvariant (s.setCoefficients sr f q)) ∧
    (∀ s : HighPass ℝ, IsLinear (s.setCoefficients sr f q) ∧ IsTimeInvariant (s.setCoefficients sr f q)) ∧
    (∀ s : BandPass1 ℝ, IsLinear (s.setCoefficients sr f q) ∧ IsTimeInvariant (s.setCoefficients sr f q)) ∧
    (∀ s : BandPass2 ℝ, IsLinear (s.setCoefficients sr f q) ∧ IsTimeInvariant (s.setCoefficients sr f q)) ∧
    (∀ s : BandStop ℝ, IsLinear (s.setCoefficients sr f q) ∧ IsTimeInvariant (s.setCoefficients sr f q)) ∧
    (∀ s : AllPass ℝ, IsLinear (s.setCoefficients sr f q) ∧ IsTimeInvariant (s.setCoefficients sr f q)) ∧
    (∀ (s : Peak ℝ) (db : ℝ), IsLinear (s.setCoefficients sr f db q) ∧ IsTimeInvariant (s.setCoefficients sr f db q)) :=
  have _ := h
  ⟨fun s => ⟨(s.implements sr f q).isLinear, (s.implements sr f q).isTimeInvariant⟩,
   fun s => ⟨(s.implements sr f q).isLinear, (s.implements sr f q).isTimeInvariant⟩,
   fun s => ⟨(s.implements sr f q).isLinear, (s.implements sr f q).isTimeInvariant⟩,
   fun s => ⟨(s.implements sr f q).isLinear, (s.implements sr f q).isTimeInvariant⟩,
   fun s => ⟨(s.implements sr f q).isLinear, (s.implements sr f q).isTimeInvariant⟩,
   fun s => ⟨(s.implements sr f q).isLinear, (s.implements sr f q).isTimeInvariant⟩,
   fun s db => ⟨(s.implements sr f db q).isLinear, (s.implements sr f db q).isTimeInvariant⟩⟩

/-- **C32**, rbj shelves; same remark. -/
theorem C32_rbj_shelves {sr f S : ℝ} (h : ValidShelf sr f S) (db : ℝ) :
    (∀ s : LowShelf ℝ, IsLinear (s.setCoefficients sr f db S) ∧ IsTimeInvariant (s.setCoefficients sr f db S)) ∧
    (∀ s : HighShelf ℝ, IsLinear (s.setCoefficients sr f db S) ∧ IsTimeInvariant (s.setCoefficients sr f db S)) :=
  have _ := h
  ⟨fun s => ⟨(s.implements sr f db S).isLinear, (s.implements sr f db S).isTimeInvariant⟩,
   fun s => ⟨(s.implements sr f db S).isLinear, (s.implements sr f db S).isTimeInvariant⟩⟩

/-! ## C38 -/

/-- Bounded inputs give outputs bounded in proportion, and the response to silence dies away. -/
def Stable {σ : Type} [Processor σ ℝ] (s : σ) : Prop := IsBoundedGain s ∧ SilenceDecays s

theorem Implements.stable {σ : Type} [Processor σ ℝ] {s : σ} {b0 b1 b2 a1 a2 : ℝ} (h : Implements s b0 b1 b2 a1 a2)
    (hs : StablePair a1 a2) : Stable s := ⟨h.isBoundedGain hs, h.from.silenceDecays hs⟩

/-- **C38.** -/
theorem C38_stable {sr f q : ℝ} (h : ValidParams sr f q) :
    (∀ s : LowPass ℝ, Stable (s.setCoefficients sr f q)) ∧ (∀ s : HighPass ℝ, Stable (s.setCoefficients sr f q)) ∧
    (∀ s : BandPass1 ℝ, Stable (s.setCoefficients sr f q)) ∧ (∀ s : BandPass2 ℝ, Stable (s.setCoefficients sr f q)) ∧
    (∀ s : BandStop ℝ, Stable (s.setCoefficients sr f q)) ∧ (∀ s : AllPass ℝ, Stable (s.setCoefficients sr f q)) ∧
    (∀ (s : Peak ℝ) (db : ℝ), Stable (s.setCoefficients sr f db q)) :=
  ⟨fun s => (s.implements sr f q).stable h.stableQ, fun s => (s.implements sr f q).stable h.stableQ,
   fun s => (s.implements sr f q).stable h.stableQ, fun s => (s.implements sr f q).stable h.stableQ,
   fun s => (s.implements sr f q).stable h.stableQ, fun s => (s.implements sr f q).stable h.stableQ,
   fun s db => (s.implements sr f db q).stable (h.stablePeak db)⟩

/-- **C38**, shelves. -/
theorem C38_shelves_stable {sr f S : ℝ} (h : ValidShelf sr f S) (db : ℝ) :
    (∀ s : LowShelf ℝ, Stable (s.setCoefficients sr f db S)) ∧
    (∀ s : HighShelf ℝ, Stable (s.setCoefficients sr f db S)) :=
  ⟨fun s => (s.implements sr f db S).stable (h.stableLow db), fun s => (s.implements sr f db S).stable (h.stableHigh db)⟩

/-! ## C39 -/

/-- The filter ends up multiplying constants by `g0` and alternating signals by `gN`. -/
def EndGains {σ : Type} [Processor σ ℝ] (s : σ) (g0 gN : ℝ) : Prop :=
  (∀ c : ℝ, ConvergesTo s (fun _ => c) (fun _ => g0 * c)) ∧
  (∀ c : ℝ, ConvergesTo s (fun n => (-1) ^ n * c) (fun n => gN * ((-1) ^ n * c)))

/-- **C39.** -/
theorem C39_end_gains {sr f q : ℝ} (h : ValidParams sr f q) :
    (∀ s : LowPass ℝ, EndGains (s.setCoefficients sr f q) 1 0) ∧
    (∀ s : HighPass ℝ, EndGains (s.setCoefficients sr f q) 0 1) ∧
    (∀ s : BandPass1 ℝ, EndGains (s.setCoefficients sr f q) 0 0) ∧
    (∀ s : BandPass2 ℝ, EndGains (s.setCoefficients sr f q) 0 0) ∧
    (∀ s : BandStop ℝ, EndGains (s.setCoefficients sr f q) 1 1) ∧
    (∀ s : AllPass ℝ, EndGains (s.setCoefficients sr f q) 1 1) ∧
    (∀ (s : Peak ℝ) (db : ℝ), EndGains (s.setCoefficients sr f db q) 1 1) := by
  refine ⟨fun s => ⟨fun c => ?_, fun c => ?_⟩, fun s => ⟨fun c => ?_, fun c => ?_⟩, fun s => ⟨fun c => ?_, fun c => ?_⟩,
    fun s => ⟨fun c => ?_, fun c => ?_⟩, fun s => ⟨fun c => ?_, fun c => ?_⟩, fun s => ⟨fun c => ?_, fun c => ?_⟩,
    fun s db => ⟨fun c => ?_, fun c => ?_⟩⟩
  · exact (s.implements sr f q).constant_div h.den h.stableQ 1 (by ring) c
  · exact (s.implements sr f q).alternating_div h.den h.stableQ 0 (by ring) c
  · exact (s.implements sr f q).constant_div h.den h.stableQ 0 (by ring) c
  · exact (s.implements sr f q).alternating_div h.den h.stableQ 1 (by ring) c
  · exact (s.implements sr f q).constant_div h.den h.stableQ 0 (by ring) c
  · exact (s.implements sr f q).alternating_div h.den h.stableQ 0 (by ring) c
  · exact (s.implements sr f q).constant_div h.den h.stableQ 0 (by ring) c
  · exact (s.implements sr f q).alternating_div h.den h.stableQ 0 (by ring) c
  · exact (s.implements sr f q).constant_div h.den h.stableQ 1 (by ring) c
  · exact (s.implements sr f q).alternating_div h.den h.stableQ 1 (by ring) c
  · exact (s.implements sr f q).constant_div h.den h.stableQ 1 (by ring) c
  · exact (s.implements sr f q).alternating_div h.den h.stableQ 1 (by ring) c
  · exact (s.implements sr f db q).constant_div (h.peak_den db) (h.stablePeak db) 1 (by ring) c
  · exact (s.implements sr f db q).alternating_div (h.peak_den db) (h.stablePeak db) 1 (by ring) c

/-- **C39**, shelves: the gain in dB on their side, no change on the other. -/
theorem C39_shelf_end_gains {sr f S : ℝ} (h : ValidShelf sr f S) (db : ℝ) :
    (∀ s : LowShelf ℝ, EndGains (s.setCoefficients sr f db S) (dbFactor db) 1) ∧
    (∀ s : HighShelf ℝ, EndGains (s.setCoefficients sr f db S) 1 (dbFactor db)) := by
  rw [← gainA_sq]
  refine ⟨fun s => ⟨fun c => ?_, fun c => ?_⟩, fun s => ⟨fun c => ?_, fun c => ?_⟩⟩
  · exact (s.implements sr f db S).constant_div (h.low_den db) (h.stableLow db) _ (by ring) c
  · exact (s.implements sr f db S).alternating_div (h.low_den db) (h.stableLow db) 1 (by ring) c
  · exact (s.implements sr f db S).constant_div (h.high_den db) (h.stableHigh db) 1 (by ring) c
  · exact (s.implements sr f db S).alternating_div (h.high_den db) (h.stableHigh db) _ (by ring) c

/-! ## C40 -/

/-- **C40.** A sinusoid at the centre frequency, any amplitude and phase. -/
theorem C40_centre_gains {sr f q : ℝ} (h : ValidParams sr f q) (A φ : ℝ) :
    (∀ s : BandStop ℝ, ConvergesTo (s.setCoefficients sr f q) (fun n => A * Real.cos (angle sr f * n + φ)) (fun _ => 0)) ∧
    (∀ s : BandPass2 ℝ, ConvergesTo (s.setCoefficients sr f q) (fun n => A * Real.cos (angle sr f * n + φ))
      (fun n => A * Real.cos (angle sr f * n + φ))) ∧
    (∀ s : BandPass1 ℝ, ConvergesTo (s.setCoefficients sr f q) (fun n => A * Real.cos (angle sr f * n + φ))
      (fun n => q * A * Real.cos (angle sr f * n + φ))) ∧
    (∀ (s : Peak ℝ) (db : ℝ), ConvergesTo (s.setCoefficients sr f db q) (fun n => A * Real.cos (angle sr f * n + φ))
      (fun n => dbFactor db * A * Real.cos (angle sr f * n + φ))) ∧
    (∀ s : AllPass ℝ, ConvergesTo (s.setCoefficients sr f q) (fun n => A * Real.cos (angle sr f * n + φ))
      (fun n => -(A * Real.cos (angle sr f * n + φ)))) ∧
    (∀ s : LowPass ℝ, ConvergesTo (s.setCoefficients sr f q) (fun n => A * Real.cos (angle sr f * n + φ))
      (fun n => q * A * Real.cos (angle sr f * n + φ - Real.pi / 2))) ∧
    (∀ s : HighPass ℝ, ConvergesTo (s.setCoefficients sr f q) (fun n => A * Real.cos (angle sr f * n + φ))
      (fun n => q * A * Real.cos (angle sr f * n + φ + Real.pi / 2))) := by
  have hsc := Real.sin_sq_add_cos_sq (angle sr f)
  have hq := h.2.2.ne'
  have hα : alphaQ sr f q * (2 * q) = Real.sin (angle sr f) := by
    rw [alphaQ]; field_simp
  have e2 := Real.cos_two_mul (angle sr f)
  have e3 := Real.sin_two_mul (angle sr f)
  refine ⟨fun s => ?_, fun s => ?_, fun s => ?_, fun s db => ?_, fun s => ?_, fun s => ?_, fun s => ?_⟩
  · have := (s.implements sr f q).sinusoid_div h.den h.stableQ 0 0 (w := angle sr f)
      (by rw [e2]; ring) (by rw [e3]; ring) A φ
    simpa using this
  · have := (s.implements sr f q).sinusoid_div h.den h.stableQ 1 0 (w := angle sr f)
      (by rw [e2]; ring) (by rw [e3]; ring) A φ
    simpa using this
  · have := (s.implements sr f q).sinusoid_div h.den h.stableQ q 0 (w := angle sr f)
      (by rw [e2]; ring) (by rw [e3]; ring) A φ
    convert this using 2
    ring
  · have hA := (gainA_pos db).ne'
    have := (s.implements sr f db q).sinusoid_div (h.peak_den db) (h.stablePeak db) (dbFactor db) 0 (w := angle sr f)
      (by rw [e2, ← gainA_sq]; field_simp; ring) (by rw [e3, ← gainA_sq]; field_simp; ring) A φ
    convert this using 2
    ring
  · have := (s.implements sr f q).sinusoid_div h.den h.stableQ (-1) 0 (w := angle sr f)
      (by rw [e2]; ring) (by rw [e3]; ring) A φ
    convert this using 2
    ring
  · have := (s.implements sr f q).sinusoid_div h.den h.stableQ 0 (-q) (w := angle sr f)
      (by rw [e2, e3]; linear_combination Real.cos (angle sr f) * Real.sin (angle sr f) * hα + Real.cos (angle sr f) * hsc)
      (by rw [e2, e3]; linear_combination (Real.cos (angle sr f) ^ 2 - 1) * hα) A φ
    convert this using 2
    rw [Real.cos_sub_pi_div_two]; ring
  · have := (s.implements sr f q).sinusoid_div h.den h.stableQ 0 q (w := angle sr f)
      (by rw [e2, e3]; linear_combination (-Real.cos (angle sr f)) * Real.sin (angle sr f) * hα - Real.cos (angle sr f) * hsc)
      (by rw [e2, e3]; linear_combination (1 - Real.cos (angle sr f) ^ 2) * hα) A φ
    convert this using 2
    rw [Real.cos_add_pi_div_two]; ring

/-! ## C41 -/

/-- **C41.** For every input frequency there is one phase shift such that sinusoids of any amplitude and phase come out
with the same frequency and amplitude. -/
theorem C41_allpass_keeps_amplitude {sr f q : ℝ} (h : ValidParams sr f q) (w : ℝ) :
    ∃ θ : ℝ, ∀ (s : AllPass ℝ) (A φ : ℝ), ConvergesTo (s.setCoefficients sr f q)
      (fun n => A * Real.cos (w * n + φ)) (fun n => A * Real.cos (w * n + φ + θ)) := by
  set a1 := -2 * Real.cos (angle sr f) / (1 + alphaQ sr f q) with ha1
  set a2 := (1 - alphaQ sr f q) / (1 + alphaQ sr f q) with ha2
  refine ⟨(freqResponse a2 a1 1 a1 a2 w).arg, fun s A φ => ?_⟩
  have hi : Implements (s.setCoefficients sr f q) a2 a1 1 a1 a2 := by
    have := s.implements sr f q
    rwa [div_self h.den] at this
  have := hi.from.frequency h.stableQ w A φ
  have hn : ‖freqResponse a2 a1 1 a1 a2 w‖ = 1 := by
    rw [freqResponse_eq, norm_div, div_eq_one_iff_eq (norm_ne_zero_iff.mpr (h.stableQ.poly_ne_zero w))]
    rw [← abs_norm, ← abs_norm (poly 1 a1 a2 w), ← sq_eq_sq_iff_abs_eq_abs, Complex.sq_norm, Complex.sq_norm]
    simp only [poly, Complex.normSq_mk]
    have e5 := Real.sin_sq_add_cos_sq (2 * w)
    have e6 := Real.cos_sub (2 * w) w
    rw [show 2 * w - w = w by ring] at e6
    linear_combination (1 - a2 ^ 2) * e5 - 2 * a1 * (1 - a2) * e6
  rw [hn] at this
  simpa using this

/-! ## C42 -/

/-- Feed-forward and feedback parts equal: the identity. -/
theorem SolvesDiff.identity {a1 a2 : ℝ} {x y : ℕ → ℝ} (h : SolvesDiff 1 a1 a2 a1 a2 x y) : y = x :=
  h.unique fun n => by ring

/-- **C42.** With 0 dB, `Peak` returns its input. -/
theorem C42_peak_transparent {sr f q : ℝ} (h : ValidParams sr f q) (s : Peak ℝ) (b : Build) (x : ℕ → ℝ) :
    Responds b (s.setCoefficients sr f 0 q) x x := by
  have hi := s.implements sr f 0 q
  rw [gainA_zero, mul_one, div_one, div_self h.den] at hi
  rw [hi]
  intro n; ring

/-- **C42.** With 0 dB, the shelves return their input. -/
theorem C42_shelves_transparent {sr f S : ℝ} (h : ValidShelf sr f S) (b : Build) (x : ℕ → ℝ) :
    (∀ s : LowShelf ℝ, Responds b (s.setCoefficients sr f 0 S) x x) ∧
    (∀ s : HighShelf ℝ, Responds b (s.setCoefficients sr f 0 S) x x) := by
  have hp := h.product_pos (db := 0)
  rw [gainA_zero] at hp
  constructor
  · intro s
    rw [s.implements sr f 0 S, gainA_zero]
    generalize 2 * Real.sqrt 1 * alphaS sr f 1 S = p at hp
    intro n
    have : (2 : ℝ) + p ≠ 0 := by positivity
    ring_nf
    field_simp
    ring
  · intro s
    rw [s.implements sr f 0 S, gainA_zero]
    generalize 2 * Real.sqrt 1 * alphaS sr f 1 S = p at hp
    intro n
    have : (2 : ℝ) + p ≠ 0 := by positivity
    ring_nf
    field_simp
    ring

/-! ## C43 -/

/-- A filter followed by the one with numerator and denominator exchanged restores the signal. -/
theorem SolvesDiff.inverse {b0 b1 b2 a0 a1 a2 : ℝ} (ha : a0 ≠ 0) (hb : b0 ≠ 0) {x y z : ℕ → ℝ}
    (h1 : SolvesDiff (b0 / a0) (b1 / a0) (b2 / a0) (a1 / a0) (a2 / a0) x y)
    (h2 : SolvesDiff (a0 / b0) (a1 / b0) (a2 / b0) (b1 / b0) (b2 / b0) y z) : z = x := by
  refine h2.unique fun n => ?_
  have := h1 n
  field_simp at this ⊢
  linarith

/-- C43. `Peak` boost and cut cancel. -/
theorem peak_cancels {sr f q : ℝ} (h : ValidParams sr f q) (s t : Peak ℝ) (db : ℝ) (b : Build) (x y z : ℕ → ℝ)
    (h1 : Responds b (s.setCoefficients sr f db q) x y) (h2 : Responds b (t.setCoefficients sr f (-db) q) y z) :
    z = x := by
  rw [s.implements sr f db q] at h1
  rw [t.implements sr f (-db) q, gainA_neg, div_inv_eq_mul, ← div_eq_mul_inv] at h2
  have := h.alphaQ_pos
  have := gainA_pos db
  exact h1.inverse (h.peak_den db) (by positivity) h2

/-- **C43.** `Peak` boost and cut cancel: what the first makes of a stream, the second turns back into it. -/
theorem C43_peak_cancels {sr f q : ℝ} (h : ValidParams sr f q) (s t : Peak ℝ) (db : ℝ) (b : Build) (x : ℕ → ℝ) :
    ∃ y, Responds b (s.setCoefficients sr f db q) x y ∧ Responds b (t.setCoefficients sr f (-db) q) y x := by
  obtain ⟨y, hy⟩ := (s.implements sr f db q).from.total b x
  obtain ⟨z, hz⟩ := (t.implements sr f (-db) q).from.total b y
  have := peak_cancels h s t db b x y z hy hz
  exact ⟨y, hy, this ▸ hz⟩

/-- C43. Shelving boost and cut cancel. -/
theorem shelves_cancel {sr f S : ℝ} (h : ValidShelf sr f S) (db : ℝ) (b : Build) (x y z : ℕ → ℝ) :
    (∀ s t : LowShelf ℝ, Responds b (s.setCoefficients sr f db S) x y → Responds b (t.setCoefficients sr f (-db) S) y z →
      z = x) ∧
    (∀ s t : HighShelf ℝ, Responds b (s.setCoefficients sr f db S) x y → Responds b (t.setCoefficients sr f (-db) S) y z →
      z = x) := by
  have hA := gainA_pos db
  have hα : alphaS sr f (gainA (-db)) S = alphaS sr f (gainA db) S := by
    rw [gainA_neg, alphaS, alphaS]
    congr 3
    rw [one_div, inv_inv, one_div]; ring
  have hp := h.product_pos (db := db)
  have hl := h.low_den db
  have hh := h.high_den db
  have hsq : Real.sqrt (gainA (-db)) = Real.sqrt (gainA db) * (gainA db)⁻¹ := by
    rw [gainA_neg, Real.sqrt_inv]
    have := Real.mul_self_sqrt hA.le
    have h0 := (Real.sqrt_pos.mpr hA).ne'
    field_simp
    linarith
  constructor
  · intro s t h1 h2
    rw [s.implements sr f db S] at h1
    rw [t.implements sr f (-db) S, hα, hsq, gainA_neg] at h2
    generalize gainA db = A at *
    generalize Real.cos (angle sr f) = c at *
    generalize alphaS sr f A S = α at *
    generalize Real.sqrt A = r at *
    refine h1.inverse hl (mul_ne_zero hA.ne' hh) ?_
    have hden : A⁻¹ + 1 + (A⁻¹ - 1) * c + 2 * (r * A⁻¹) * α = (A + 1 - (A - 1) * c + 2 * r * α) / A := by
      field_simp; ring
    rw [hden] at h2
    convert h2 using 1 <;> field_simp <;> ring
  · intro s t h1 h2
    rw [s.implements sr f db S] at h1
    rw [t.implements sr f (-db) S, hα, hsq, gainA_neg] at h2
    generalize gainA db = A at *
    generalize Real.cos (angle sr f) = c at *
    generalize alphaS sr f A S = α at *
    generalize Real.sqrt A = r at *
    refine h1.inverse hh (mul_ne_zero hA.ne' hl) ?_
    have hden : A⁻¹ + 1 - (A⁻¹ - 1) * c + 2 * (r * A⁻¹) * α = (A + 1 + (A - 1) * c + 2 * r * α) / A := by
      field_simp; ring
    rw [hden] at h2
    convert h2 using 1 <;> field_simp <;> ring

/-- **C43.** Shelving boost and cut cancel. -/
theorem C43_shelves_cancel {sr f S : ℝ} (h : ValidShelf sr f S) (db : ℝ) (b : Build) (x : ℕ → ℝ) :
    (∀ s t : LowShelf ℝ, ∃ y, Responds b (s.setCoefficients sr f db S) x y ∧
      Responds b (t.setCoefficients sr f (-db) S) y x) ∧
    (∀ s t : HighShelf ℝ, ∃ y, Responds b (s.setCoefficients sr f db S) x y ∧
      Responds b (t.setCoefficients sr f (-db) S) y x) := by
  refine ⟨fun s t => ?_, fun s t => ?_⟩ <;>
  · obtain ⟨y, hy⟩ := (s.implements sr f db S).from.total b x
    obtain ⟨z, hz⟩ := (t.implements sr f (-db) S).from.total b y
    first
      | have := (shelves_cancel h db b x y z).1 s t hy hz
        exact ⟨y, hy, this ▸ hz⟩
      | have := (shelves_cancel h db b x y z).2 s t hy hz
        exact ⟨y, hy, this ▸ hz⟩

/-! ## C44 -/

/-- C44. With equal parameters, the filters are complementary sample by sample. -/
theorem complementary {sr f q : ℝ} (h : ValidParams sr f q) (lp : LowPass ℝ) (hp : HighPass ℝ) (bp1 : BandPass1 ℝ)
    (bp2 : BandPass2 ℝ) (bs : BandStop ℝ) (ap : AllPass ℝ) (b : Build) (x yl yh y1 y2 ys ya : ℕ → ℝ)
    (hl : Responds b (lp.setCoefficients sr f q) x yl) (hh : Responds b (hp.setCoefficients sr f q) x yh)
    (h1 : Responds b (bp1.setCoefficients sr f q) x y1) (h2 : Responds b (bp2.setCoefficients sr f q) x y2)
    (hs : Responds b (bs.setCoefficients sr f q) x ys) (ha : Responds b (ap.setCoefficients sr f q) x ya) (n : ℕ) :
    yl n + yh n = ys n ∧ ys n + y2 n = x n ∧ ys n - y2 n = ya n ∧ y1 n = q * y2 n := by
  have hd := h.den
  rw [lp.implements sr f q] at hl
  rw [hp.implements sr f q] at hh
  rw [bp1.implements sr f q] at h1
  rw [bp2.implements sr f q] at h2
  rw [bs.implements sr f q] at hs
  rw [ap.implements sr f q] at ha
  generalize alphaQ sr f q = α at *
  generalize Real.cos (angle sr f) = c at *
  refine ⟨?_, ?_, ?_, ?_⟩
  · refine congrFun (SolvesDiff.unique (hl.add_feedforward hh) ?_) n
    convert hs using 1 <;> ring
  · refine congrFun (SolvesDiff.unique (hs.add_feedforward h2) ?_) n
    intro m
    field_simp
    ring
  · have h3 : SolvesDiff (-(α / (1 + α))) (-(0 / (1 + α))) (-(-α / (1 + α))) (-2 * c / (1 + α)) ((1 - α) / (1 + α)) x
        (fun n => - y2 n) := by
      intro m
      show -y2 m = _
      rw [h2 m]
      simp only [lag, real_zero]
      split_ifs <;> ring
    have := congrFun (SolvesDiff.unique (hs.add_feedforward h3) (z := ya) (by convert ha using 1 <;> ring)) n
    rw [← this]; ring
  · refine congrFun (SolvesDiff.unique h1 (z := fun n => q * y2 n) ?_) n
    intro m
    show q * y2 m = _
    rw [h2 m]
    simp only [lag, real_zero]
    split_ifs <;> ring

/-- **C44.** With equal parameters, the filters are complementary sample by sample. -/
theorem C44_complementary {sr f q : ℝ} (h : ValidParams sr f q) (lp : LowPass ℝ) (hp : HighPass ℝ) (bp1 : BandPass1 ℝ)
    (bp2 : BandPass2 ℝ) (bs : BandStop ℝ) (ap : AllPass ℝ) (b : Build) (x : ℕ → ℝ) :
    ∃ yl yh y1 y2 ys ya, Responds b (lp.setCoefficients sr f q) x yl ∧ Responds b (hp.setCoefficients sr f q) x yh ∧
      Responds b (bp1.setCoefficients sr f q) x y1 ∧ Responds b (bp2.setCoefficients sr f q) x y2 ∧
      Responds b (bs.setCoefficients sr f q) x ys ∧ Responds b (ap.setCoefficients sr f q) x ya ∧
      ∀ n, yl n + yh n = ys n ∧ ys n + y2 n = x n ∧ ys n - y2 n = ya n ∧ y1 n = q * y2 n := by
  obtain ⟨yl, hl⟩ := (lp.implements sr f q).from.total b x
  obtain ⟨yh, hh⟩ := (hp.implements sr f q).from.total b x
  obtain ⟨y1, h1⟩ := (bp1.implements sr f q).from.total b x
  obtain ⟨y2, h2⟩ := (bp2.implements sr f q).from.total b x
  obtain ⟨ys, hs⟩ := (bs.implements sr f q).from.total b x
  obtain ⟨ya, ha⟩ := (ap.implements sr f q).from.total b x
  exact ⟨yl, yh, y1, y2, ys, ya, hl, hh, h1, h2, hs, ha, complementary h lp hp bp1 bp2 bs ap b x yl yh y1 y2 ys ya hl hh h1 h2 hs ha⟩

end Rasp
