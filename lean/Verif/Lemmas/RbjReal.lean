import Verif.Spec.Rbj
import Verif.Lemmas.Rbj
import Verif.Lemmas.Response

/-! # rbj filters in exact arithmetic: their difference equations -/

namespace Rasp
open FloatOps

/-! ## Parameters -/

theorem ValidParams.sin_pos {sr f q : ℝ} (h : ValidParams sr f q) : 0 < Real.sin (angle sr f) := by
  obtain ⟨h1, h2, _⟩ := h
  have hsr : 0 < sr := by linarith
  apply Real.sin_pos_of_pos_of_lt_pi
  · unfold angle; have := Real.pi_pos; positivity
  · unfold angle
    rw [div_lt_iff₀ hsr]
    have := Real.pi_pos
    nlinarith

theorem ValidShelf.params {sr f S : ℝ} (h : ValidShelf sr f S) : ValidParams sr f S := ⟨h.1, h.2.1, h.2.2.1⟩

theorem cos_lt_one_of_sin_pos {w : ℝ} (h : 0 < Real.sin w) : -1 < Real.cos w ∧ Real.cos w < 1 := by
  have := Real.sin_sq_add_cos_sq w
  have h2 : Real.cos w ^ 2 < 1 := by nlinarith
  constructor <;> nlinarith

/-- The bandwidth parameter computed from `q`. -/
noncomputable def alphaQ (sr f q : ℝ) : ℝ := Real.sin (angle sr f) / (2 * q)

/-- The bandwidth parameter computed from a shelf slope. -/
noncomputable def alphaS (sr f A S : ℝ) : ℝ := Real.sin (angle sr f) / 2 * Real.sqrt ((A + 1 / A) * (1 / S - 1) + 2)

/-- The square root of the gain factor. -/
noncomputable def gainA (db : ℝ) : ℝ := 10 ^ (db / 40)

theorem ValidParams.alphaQ_pos {sr f q : ℝ} (h : ValidParams sr f q) : 0 < alphaQ sr f q :=
  div_pos h.sin_pos (by have := h.2.2; positivity)

theorem gainA_pos (db : ℝ) : 0 < gainA db := Real.rpow_pos_of_pos (by norm_num) _

theorem gainA_sq (db : ℝ) : gainA db ^ 2 = dbFactor db := by
  rw [gainA, dbFactor, ← Real.rpow_natCast, ← Real.rpow_mul (by norm_num)]
  congr 1
  push_cast
  ring

theorem gainA_neg (db : ℝ) : gainA (-db) = (gainA db)⁻¹ := by
  rw [gainA, gainA, neg_div, Real.rpow_neg (by norm_num)]

theorem gainA_zero : gainA 0 = 1 := by simp [gainA]

theorem ValidShelf.sqrt_arg_pos {sr f S A : ℝ} (h : ValidShelf sr f S) (hA : 0 < A) :
    0 < (A + 1 / A) * (1 / S - 1) + 2 := by
  have h1 : 0 ≤ 1 / S - 1 := by
    have := h.2.2.1
    rw [sub_nonneg, le_div_iff₀ this]
    linarith [h.2.2.2]
  have h2 : 0 < A + 1 / A := by positivity
  nlinarith [mul_nonneg h2.le h1]

theorem ValidShelf.alphaS_pos {sr f S A : ℝ} (h : ValidShelf sr f S) (hA : 0 < A) : 0 < alphaS sr f A S :=
  mul_pos (by have := h.params.sin_pos; positivity) (Real.sqrt_pos.mpr (h.sqrt_arg_pos hA))

/-! ## The stored coefficients -/

theorem rbjStore_implements (s : Biquad2 ℝ) (b0 b1 b2 a0 a1 a2 : ℝ) :
    Implements (rbjStore s b0 b1 b2 a0 a1 a2) (b0 / a0) (b1 / a0) (b2 / a0) (a1 / a0) (a2 / a0) :=
  ImplementsFrom.implements (Biquad2.implementsFrom (rbjStore s b0 b1 b2 a0 a1 a2))

variable {sr f q db S : ℝ}

theorem LowPass.implements (s : LowPass ℝ) (sr f q : ℝ) : Implements (s.setCoefficients sr f q)
    ((1 - Real.cos (angle sr f)) / 2 / (1 + alphaQ sr f q)) ((1 - Real.cos (angle sr f)) / (1 + alphaQ sr f q))
    ((1 - Real.cos (angle sr f)) / 2 / (1 + alphaQ sr f q))
    (-2 * Real.cos (angle sr f) / (1 + alphaQ sr f q)) ((1 - alphaQ sr f q) / (1 + alphaQ sr f q)) :=
  fun _ _ _ => (LowPass.responds_iff _).trans (rbjStore_implements s.biquad _ _ _ _ _ _ _ _ _)

theorem HighPass.implements (s : HighPass ℝ) (sr f q : ℝ) : Implements (s.setCoefficients sr f q)
    ((1 + Real.cos (angle sr f)) / 2 / (1 + alphaQ sr f q)) ((-1 - Real.cos (angle sr f)) / (1 + alphaQ sr f q))
    ((1 + Real.cos (angle sr f)) / 2 / (1 + alphaQ sr f q))
    (-2 * Real.cos (angle sr f) / (1 + alphaQ sr f q)) ((1 - alphaQ sr f q) / (1 + alphaQ sr f q)) :=
  fun _ _ _ => (HighPass.responds_iff _).trans (rbjStore_implements s.biquad _ _ _ _ _ _ _ _ _)

theorem BandPass1.implements (s : BandPass1 ℝ) (sr f q : ℝ) : Implements (s.setCoefficients sr f q)
    (q * alphaQ sr f q / (1 + alphaQ sr f q)) (0 / (1 + alphaQ sr f q)) (-q * alphaQ sr f q / (1 + alphaQ sr f q))
    (-2 * Real.cos (angle sr f) / (1 + alphaQ sr f q)) ((1 - alphaQ sr f q) / (1 + alphaQ sr f q)) :=
  fun _ _ _ => (BandPass1.responds_iff _).trans (rbjStore_implements s.biquad _ _ _ _ _ _ _ _ _)

theorem BandPass2.implements (s : BandPass2 ℝ) (sr f q : ℝ) : Implements (s.setCoefficients sr f q)
    (alphaQ sr f q / (1 + alphaQ sr f q)) (0 / (1 + alphaQ sr f q)) (-alphaQ sr f q / (1 + alphaQ sr f q))
    (-2 * Real.cos (angle sr f) / (1 + alphaQ sr f q)) ((1 - alphaQ sr f q) / (1 + alphaQ sr f q)) :=
  fun _ _ _ => (BandPass2.responds_iff _).trans (rbjStore_implements s.biquad _ _ _ _ _ _ _ _ _)

theorem BandStop.implements (s : BandStop ℝ) (sr f q : ℝ) : Implements (s.setCoefficients sr f q)
    (1 / (1 + alphaQ sr f q)) (-2 * Real.cos (angle sr f) / (1 + alphaQ sr f q)) (1 / (1 + alphaQ sr f q))
    (-2 * Real.cos (angle sr f) / (1 + alphaQ sr f q)) ((1 - alphaQ sr f q) / (1 + alphaQ sr f q)) :=
  fun _ _ _ => (BandStop.responds_iff _).trans (rbjStore_implements s.biquad _ _ _ _ _ _ _ _ _)

theorem AllPass.implements (s : AllPass ℝ) (sr f q : ℝ) : Implements (s.setCoefficients sr f q)
    ((1 - alphaQ sr f q) / (1 + alphaQ sr f q)) (-2 * Real.cos (angle sr f) / (1 + alphaQ sr f q))
    ((1 + alphaQ sr f q) / (1 + alphaQ sr f q))
    (-2 * Real.cos (angle sr f) / (1 + alphaQ sr f q)) ((1 - alphaQ sr f q) / (1 + alphaQ sr f q)) :=
  fun _ _ _ => (AllPass.responds_iff _).trans (rbjStore_implements s.biquad _ _ _ _ _ _ _ _ _)

theorem evalR_lit (c : ℚ) : F64Const.evalR (.lit c) = (c : ℝ) := rfl

theorem Peak.implements (s : Peak ℝ) (sr f db q : ℝ) : Implements (s.setCoefficients sr f db q)
    ((1 + alphaQ sr f q * gainA db) / (1 + alphaQ sr f q / gainA db))
    (-2 * Real.cos (angle sr f) / (1 + alphaQ sr f q / gainA db))
    ((1 - alphaQ sr f q * gainA db) / (1 + alphaQ sr f q / gainA db))
    (-2 * Real.cos (angle sr f) / (1 + alphaQ sr f q / gainA db))
    ((1 - alphaQ sr f q / gainA db) / (1 + alphaQ sr f q / gainA db)) := by
  intro b x y
  refine (Peak.responds_iff _).trans ?_
  refine (rbjStore_implements s.biquad _ _ _ _ _ _ b x y).trans ?_
  simp only [real_one, real_two, real_pi, real_add, real_sub, real_mul, real_div, real_neg, real_cos,
    real_sin, real_powf, real_ofF64, evalR_lit, Rat.cast_ofNat, alphaQ, gainA, angle]

theorem LowShelf.implements (s : LowShelf ℝ) (sr f db S : ℝ) : Implements (s.setCoefficients sr f db S)
    (gainA db * (gainA db + 1 - (gainA db - 1) * Real.cos (angle sr f) + 2 * Real.sqrt (gainA db) * alphaS sr f (gainA db) S) /
      (gainA db + 1 + (gainA db - 1) * Real.cos (angle sr f) + 2 * Real.sqrt (gainA db) * alphaS sr f (gainA db) S))
    (2 * gainA db * (gainA db - 1 - (gainA db + 1) * Real.cos (angle sr f)) /
      (gainA db + 1 + (gainA db - 1) * Real.cos (angle sr f) + 2 * Real.sqrt (gainA db) * alphaS sr f (gainA db) S))
    (gainA db * (gainA db + 1 - (gainA db - 1) * Real.cos (angle sr f) - 2 * Real.sqrt (gainA db) * alphaS sr f (gainA db) S) /
      (gainA db + 1 + (gainA db - 1) * Real.cos (angle sr f) + 2 * Real.sqrt (gainA db) * alphaS sr f (gainA db) S))
    (-2 * (gainA db - 1 + (gainA db + 1) * Real.cos (angle sr f)) /
      (gainA db + 1 + (gainA db - 1) * Real.cos (angle sr f) + 2 * Real.sqrt (gainA db) * alphaS sr f (gainA db) S))
    ((gainA db + 1 + (gainA db - 1) * Real.cos (angle sr f) - 2 * Real.sqrt (gainA db) * alphaS sr f (gainA db) S) /
      (gainA db + 1 + (gainA db - 1) * Real.cos (angle sr f) + 2 * Real.sqrt (gainA db) * alphaS sr f (gainA db) S)) := by
  intro b x y
  refine (LowShelf.responds_iff _).trans ?_
  refine (rbjStore_implements s.biquad _ _ _ _ _ _ b x y).trans ?_
  simp only [real_one, real_two, real_pi, real_add, real_sub, real_mul, real_div, real_neg, real_sqrt, real_cos,
    real_sin, real_powf, real_ofF64, evalR_lit, Rat.cast_ofNat, alphaS, gainA, angle]

theorem HighShelf.implements (s : HighShelf ℝ) (sr f db S : ℝ) : Implements (s.setCoefficients sr f db S)
    (gainA db * (gainA db + 1 + (gainA db - 1) * Real.cos (angle sr f) + 2 * Real.sqrt (gainA db) * alphaS sr f (gainA db) S) /
      (gainA db + 1 - (gainA db - 1) * Real.cos (angle sr f) + 2 * Real.sqrt (gainA db) * alphaS sr f (gainA db) S))
    (-2 * gainA db * (gainA db - 1 + (gainA db + 1) * Real.cos (angle sr f)) /
      (gainA db + 1 - (gainA db - 1) * Real.cos (angle sr f) + 2 * Real.sqrt (gainA db) * alphaS sr f (gainA db) S))
    (gainA db * (gainA db + 1 + (gainA db - 1) * Real.cos (angle sr f) - 2 * Real.sqrt (gainA db) * alphaS sr f (gainA db) S) /
      (gainA db + 1 - (gainA db - 1) * Real.cos (angle sr f) + 2 * Real.sqrt (gainA db) * alphaS sr f (gainA db) S))
    (2 * (gainA db - 1 - (gainA db + 1) * Real.cos (angle sr f)) /
      (gainA db + 1 - (gainA db - 1) * Real.cos (angle sr f) + 2 * Real.sqrt (gainA db) * alphaS sr f (gainA db) S))
    ((gainA db + 1 - (gainA db - 1) * Real.cos (angle sr f) - 2 * Real.sqrt (gainA db) * alphaS sr f (gainA db) S) /
      (gainA db + 1 - (gainA db - 1) * Real.cos (angle sr f) + 2 * Real.sqrt (gainA db) * alphaS sr f (gainA db) S)) := by
  intro b x y
  refine (HighShelf.responds_iff _).trans ?_
  refine (rbjStore_implements s.biquad _ _ _ _ _ _ b x y).trans ?_
  simp only [real_one, real_two, real_pi, real_add, real_sub, real_mul, real_div, real_neg, real_sqrt, real_cos,
    real_sin, real_powf, real_ofF64, evalR_lit, Rat.cast_ofNat, alphaS, gainA, angle]

/-! ## Stability -/

theorem stablePair_div {a0 a1 a2 : ℝ} (h0 : 0 < a0) (h1 : |a2| < a0) (h2 : |a1| < a0 + a2) :
    StablePair (a1 / a0) (a2 / a0) := by
  refine ⟨?_, ?_⟩
  · rw [abs_div, abs_of_pos h0, div_lt_one h0]; exact h1
  · rw [abs_div, abs_of_pos h0, div_lt_iff₀ h0, add_mul, one_mul, div_mul_cancel₀ _ h0.ne']; exact h2

theorem ValidParams.stable (h : ValidParams sr f q) {a : ℝ} (ha : 0 < a) :
    StablePair (-2 * Real.cos (angle sr f) / (1 + a)) ((1 - a) / (1 + a)) := by
  obtain ⟨h1, h2⟩ := cos_lt_one_of_sin_pos h.sin_pos
  refine stablePair_div (by linarith) ?_ ?_ <;> rw [abs_lt] <;> constructor <;> linarith

theorem lowShelf_den_pos {A c p : ℝ} (hA : 0 < A) (h1 : -1 < c) (h2 : c < 1) (hp : 0 < p) :
    0 < A + 1 + (A - 1) * c + p := by
  nlinarith [mul_pos hA (show 0 < 1 + c by linarith)]

theorem highShelf_den_pos {A c p : ℝ} (hA : 0 < A) (h1 : -1 < c) (h2 : c < 1) (hp : 0 < p) :
    0 < A + 1 - (A - 1) * c + p := by
  nlinarith [mul_pos hA (show 0 < 1 - c by linarith)]

theorem lowShelf_stable {A c p : ℝ} (hA : 0 < A) (h1 : -1 < c) (h2 : c < 1) (hp : 0 < p) :
    StablePair (-2 * (A - 1 + (A + 1) * c) / (A + 1 + (A - 1) * c + p)) ((A + 1 + (A - 1) * c - p) / (A + 1 + (A - 1) * c + p)) := by
  have e := mul_pos hA (show 0 < 1 + c by linarith)
  refine stablePair_div (lowShelf_den_pos hA h1 h2 hp) ?_ ?_ <;> rw [abs_lt] <;> constructor <;> nlinarith

theorem highShelf_stable {A c p : ℝ} (hA : 0 < A) (h1 : -1 < c) (h2 : c < 1) (hp : 0 < p) :
    StablePair (2 * (A - 1 - (A + 1) * c) / (A + 1 - (A - 1) * c + p)) ((A + 1 - (A - 1) * c - p) / (A + 1 - (A - 1) * c + p)) := by
  have e := mul_pos hA (show 0 < 1 - c by linarith)
  refine stablePair_div (highShelf_den_pos hA h1 h2 hp) ?_ ?_ <;> rw [abs_lt] <;> constructor <;> nlinarith

theorem ValidShelf.product_pos (h : ValidShelf sr f S) : 0 < 2 * Real.sqrt (gainA db) * alphaS sr f (gainA db) S := by
  have := h.alphaS_pos (gainA_pos db)
  have := Real.sqrt_pos.mpr (gainA_pos db)
  positivity

/-! ## Steady state with the common denominator -/

variable {σ : Type} [Processor σ ℝ] {s : σ} {b0 b1 b2 a0 a1 a2 : ℝ}

theorem Implements.constant_div (h : Implements s (b0 / a0) (b1 / a0) (b2 / a0) (a1 / a0) (a2 / a0)) (h0 : a0 ≠ 0)
    (hs : StablePair (a1 / a0) (a2 / a0)) (g : ℝ) (hg : g * (a0 + a1 + a2) = b0 + b1 + b2) (c : ℝ) :
    ConvergesTo s (fun _ => c) (fun _ => g * c) := by
  refine h.from.constant hs ?_ c
  field_simp
  linarith

theorem Implements.alternating_div (h : Implements s (b0 / a0) (b1 / a0) (b2 / a0) (a1 / a0) (a2 / a0)) (h0 : a0 ≠ 0)
    (hs : StablePair (a1 / a0) (a2 / a0)) (g : ℝ) (hg : g * (a0 - a1 + a2) = b0 - b1 + b2) (c : ℝ) :
    ConvergesTo s (fun n => (-1) ^ n * c) (fun n => g * ((-1) ^ n * c)) := by
  refine h.from.alternating hs ?_ c
  field_simp
  linarith

theorem Implements.sinusoid_div (hi : Implements s (b0 / a0) (b1 / a0) (b2 / a0) (a1 / a0) (a2 / a0)) (h0 : a0 ≠ 0)
    (hs : StablePair (a1 / a0) (a2 / a0)) (g h : ℝ) {w : ℝ}
    (hre : g * (a0 + a1 * Real.cos w + a2 * Real.cos (2 * w)) + h * (a1 * Real.sin w + a2 * Real.sin (2 * w)) =
      b0 + b1 * Real.cos w + b2 * Real.cos (2 * w))
    (him : h * (a0 + a1 * Real.cos w + a2 * Real.cos (2 * w)) - g * (a1 * Real.sin w + a2 * Real.sin (2 * w)) =
      -(b1 * Real.sin w + b2 * Real.sin (2 * w))) (A φ : ℝ) :
    ConvergesTo s (fun n => A * Real.cos (w * n + φ)) (fun n => A * (g * Real.cos (w * n + φ) - h * Real.sin (w * n + φ))) := by
  refine hi.from.sinusoid hs ?_ ?_ A φ
  · field_simp
    linarith
  · field_simp
    linarith

end Rasp
