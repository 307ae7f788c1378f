import Verif.Lemmas.ShelfFloat
import Verif.Props.RbjFloat

/-!
# C84: Peak and the shelves in floating point approximate the exact ones

As C83, with the gain computed by the library's `powf`.
-/

namespace Rasp
open FloatOps Fl
variable {f : Fmt} {L : Libm f} {k G : ℝ} {sr fc db q slope : Fl L}

theorem Peak.close {b : Biquad2 (Fl L)} {E : ℝ} (s : Peak ℝ) (sr f db q : ℝ) (h : CoeffsWithin b
    ((1 + alphaQ sr f q * gainA db) / (1 + alphaQ sr f q / gainA db))
    (-2 * Real.cos (angle sr f) / (1 + alphaQ sr f q / gainA db))
    ((1 - alphaQ sr f q * gainA db) / (1 + alphaQ sr f q / gainA db))
    (-2 * Real.cos (angle sr f) / (1 + alphaQ sr f q / gainA db))
    ((1 - alphaQ sr f q / gainA db) / (1 + alphaQ sr f q / gainA db)) E) : CoeffsClose b (s.setCoefficients sr f db q).biquad E := by
  simp only [CoeffsClose, Peak.setCoefficients, rbjStore, Biquad2.setCoefficients, Biquad2.clear, real_one, real_two, real_pi, real_add,
    real_sub, real_mul, real_div, real_neg, real_cos, real_sin, real_powf, real_ofF64, evalR_lit, Rat.cast_ofNat]
  exact h

theorem LowShelf.close {b : Biquad2 (Fl L)} {E : ℝ} (s : LowShelf ℝ) (sr f db S : ℝ) (h : CoeffsWithin b
    (gainA db * (gainA db + 1 - (gainA db - 1) * Real.cos (angle sr f) + 2 * Real.sqrt (gainA db) * alphaS sr f (gainA db) S) /
      (gainA db + 1 + (gainA db - 1) * Real.cos (angle sr f) + 2 * Real.sqrt (gainA db) * alphaS sr f (gainA db) S))
    (2 * gainA db * (gainA db - 1 - (gainA db + 1) * Real.cos (angle sr f)) /
      (gainA db + 1 + (gainA db - 1) * Real.cos (angle sr f) + 2 * Real.sqrt (gainA db) * alphaS sr f (gainA db) S))
    (gainA db * (gainA db + 1 - (gainA db - 1) * Real.cos (angle sr f) - 2 * Real.sqrt (gainA db) * alphaS sr f (gainA db) S) /
      (gainA db + 1 + (gainA db - 1) * Real.cos (angle sr f) + 2 * Real.sqrt (gainA db) * alphaS sr f (gainA db) S))
    (-2 * (gainA db - 1 + (gainA db + 1) * Real.cos (angle sr f)) /
      (gainA db + 1 + (gainA db - 1) * Real.cos (angle sr f) + 2 * Real.sqrt (gainA db) * alphaS sr f (gainA db) S))
    ((gainA db + 1 + (gainA db - 1) * Real.cos (angle sr f) - 2 * Real.sqrt (gainA db) * alphaS sr f (gainA db) S) /
      (gainA db + 1 + (gainA db - 1) * Real.cos (angle sr f) + 2 * Real.sqrt (gainA db) * alphaS sr f (gainA db) S)) E) :
    CoeffsClose b (s.setCoefficients sr f db S).biquad E := by
  simp only [CoeffsClose, LowShelf.setCoefficients, rbjStore, Biquad2.setCoefficients, Biquad2.clear, real_one, real_two, real_pi, real_add,
    real_sub, real_mul, real_div, real_neg, real_sqrt, real_cos, real_sin, real_powf, real_ofF64, evalR_lit, Rat.cast_ofNat]
  exact h

theorem HighShelf.close {b : Biquad2 (Fl L)} {E : ℝ} (s : HighShelf ℝ) (sr f db S : ℝ) (h : CoeffsWithin b
    (gainA db * (gainA db + 1 + (gainA db - 1) * Real.cos (angle sr f) + 2 * Real.sqrt (gainA db) * alphaS sr f (gainA db) S) /
      (gainA db + 1 - (gainA db - 1) * Real.cos (angle sr f) + 2 * Real.sqrt (gainA db) * alphaS sr f (gainA db) S))
    (-2 * gainA db * (gainA db - 1 + (gainA db + 1) * Real.cos (angle sr f)) /
      (gainA db + 1 - (gainA db - 1) * Real.cos (angle sr f) + 2 * Real.sqrt (gainA db) * alphaS sr f (gainA db) S))
    (gainA db * (gainA db + 1 + (gainA db - 1) * Real.cos (angle sr f) - 2 * Real.sqrt (gainA db) * alphaS sr f (gainA db) S) /
      (gainA db + 1 - (gainA db - 1) * Real.cos (angle sr f) + 2 * Real.sqrt (gainA db) * alphaS sr f (gainA db) S))
    (2 * (gainA db - 1 - (gainA db + 1) * Real.cos (angle sr f)) /
      (gainA db + 1 - (gainA db - 1) * Real.cos (angle sr f) + 2 * Real.sqrt (gainA db) * alphaS sr f (gainA db) S))
    ((gainA db + 1 - (gainA db - 1) * Real.cos (angle sr f) - 2 * Real.sqrt (gainA db) * alphaS sr f (gainA db) S) /
      (gainA db + 1 - (gainA db - 1) * Real.cos (angle sr f) + 2 * Real.sqrt (gainA db) * alphaS sr f (gainA db) S)) E) :
    CoeffsClose b (s.setCoefficients sr f db S).biquad E := by
  simp only [CoeffsClose, HighShelf.setCoefficients, rbjStore, Biquad2.setCoefficients, Biquad2.clear, real_one, real_two, real_pi, real_add,
    real_sub, real_mul, real_div, real_neg, real_sqrt, real_cos, real_sin, real_powf, real_ofF64, evalR_lit, Rat.cast_ofNat]
  exact h

/-- Error of the outputs, for bandwidth `R` and pole margin `m`. -/
noncomputable def gainBound (f : Fmt) (k G R m X : ℝ) : ℝ :=
  (36288 * G ^ 4 * (f.u * X + f.tiny) + 34 * G ^ 2 * gainErr f k G R * X) / m ^ 2

theorem gain_tracks {b : Biquad2 (Fl L)} {b0 b1 b2 a1 a2 R m X : ℝ} (hc : CoeffsWithin b b0 b1 b2 a1 a2 (gainErr f k G R)) (hk : 0 ≤ k) (hG : 1 ≤ G) (hR : 0 ≤ R)
    (h : PoleMargin a1 a2 m) (hE : 8 * gainErr f k G R ≤ m) (hS : |b0| + |b1| + |b2| + |a1| + |a2| ≤ 7 * G ^ 2) (hX : 0 ≤ X)
    (hrange : 191808 * G ^ 4 * (X + f.tiny) ≤ m ^ 2 * 2 ^ f.emax) {τ : Type} [Processor τ ℝ] {r : τ} (hr : Implements r b0 b1 b2 a1 a2) :
    Tracks b r X (gainBound f k G R m X) := by
  have hu := f.u_pos
  have ht := f.tiny_pos
  have hm := h.pos
  have hG2 : 1 ≤ G ^ 2 := one_le_pow₀ hG
  have hG4 : G ^ 2 ≤ G ^ 4 := pow_le_pow_right₀ hG (by norm_num)
  have hsq : (2 + 7 * G ^ 2) ^ 2 ≤ 81 * G ^ 4 := by
    have := pow_le_pow_left₀ (by positivity) (show 2 + 7 * G ^ 2 ≤ 9 * G ^ 2 by linarith) 2
    linarith
  refine (hc.tracks h hE (S := 7 * G ^ 2) hS hX ?_ ?_ hr).le ?_
  · have e0 : f.u * G ^ 4 ≤ (k + 1) * f.u * (G ^ 4 * (1 + R)) := by
      have h1 : f.u ≤ (k + 1) * f.u := by nlinarith
      have h2 : G ^ 4 ≤ G ^ 4 * (1 + R) := le_mul_of_one_le_right (by positivity) (by linarith)
      exact mul_le_mul h1 h2 (by positivity) (by positivity)
    unfold gainErr at hE
    have e3 := mul_le_mul_of_nonneg_right (show 5280 * (f.u * G ^ 4) ≤ m by linarith) (show (0 : ℝ) ≤ 2 ^ f.p by positivity)
    rw [show 5280 * (f.u * G ^ 4) * 2 ^ f.p = 5280 * G ^ 4 * (f.u * 2 ^ f.p) by ring, f.u_mul] at e3
    linarith
  · refine le_trans (mul_le_mul_of_nonneg_right ?_ (by positivity)) hrange
    linarith
  · unfold gainBound
    refine div_le_div_of_nonneg_right ?_ (by positivity)
    have e0 : 0 ≤ gainErr f k G R * X := by unfold gainErr; positivity
    have e1 := mul_le_mul_of_nonneg_right hsq (show 0 ≤ f.u * X + f.tiny by positivity)
    have e2 := mul_le_mul_of_nonneg_right (show 6 + 4 * (7 * G ^ 2) ≤ 34 * G ^ 2 by linarith) e0
    linarith

section
variable (hL : AccurateTrig L k) (hP : AccuratePow L k) (hf : f.Roomy) (hp : 7 ≤ f.p) (hk : 0 ≤ k)
include hL hP hf hp hk

/-- **C84**, coefficients: those stored by `set_coefficients` are within `gainErr` of the ones the same code computes
in exact arithmetic. -/
theorem C84_coefficients :
    (PeakResolved k G sr fc db q → ∀ (s : Peak (Fl L)) (r : Peak ℝ), CoeffsClose (s.setCoefficients sr fc db q).biquad
      (r.setCoefficients sr.toReal fc.toReal db.toReal q.toReal).biquad (gainErr f k G (1 / (2 * q.toReal)))) ∧
    (ShelfResolved k G sr fc db slope →
      (∀ (s : LowShelf (Fl L)) (r : LowShelf ℝ), CoeffsClose (s.setCoefficients sr fc db slope).biquad
        (r.setCoefficients sr.toReal fc.toReal db.toReal slope.toReal).biquad (gainErr f k G (slopeR (gainA db.toReal) slope.toReal))) ∧
      (∀ (s : HighShelf (Fl L)) (r : HighShelf ℝ), CoeffsClose (s.setCoefficients sr fc db slope).biquad
        (r.setCoefficients sr.toReal fc.toReal db.toReal slope.toReal).biquad (gainErr f k G (slopeR (gainA db.toReal) slope.toReal)))) :=
  ⟨fun h s r => r.close _ _ _ _ (h.within hL hP hf hp hk s), fun h =>
    ⟨fun s r => r.close _ _ _ _ ((h.within hL hP hf hp hk).1 s), fun s r => r.close _ _ _ _ ((h.within hL hP hf hp hk).2 s)⟩⟩

/-- **C84**, outputs of Peak. -/
theorem C84_peak {X : ℝ} (h : PeakResolved k G sr fc db q) (hX : 0 ≤ X)
    (hrange : 191808 * G ^ 4 * (X + f.tiny) ≤ rbjMargin sr.toReal fc.toReal (q.toReal * gainA db.toReal) ^ 2 * 2 ^ f.emax)
    (s : Peak (Fl L)) (r : Peak ℝ) : Tracks (s.setCoefficients sr fc db q) (r.setCoefficients sr.toReal fc.toReal db.toReal q.toReal) X
      (gainBound f k G (1 / (2 * q.toReal)) (rbjMargin sr.toReal fc.toReal (q.toReal * gainA db.toReal)) X) := by
  have hA := gainA_pos db.toReal
  have hq : 0 < q.toReal := h.valid.2.2
  have hG := h.gain.one_le
  have hG2 : 1 ≤ G ^ 2 := one_le_pow₀ hG
  have hα := h.valid.alphaQ_pos
  have eα : alphaQ sr.toReal fc.toReal (q.toReal * gainA db.toReal) = alphaQ sr.toReal fc.toReal q.toReal / gainA db.toReal := by
    unfold alphaQ; field_simp
  have hm := rbj_poleMargin h.valid'
  rw [eα] at hm
  refine (gain_tracks (h.within hL hP hf hp hk s) hk hG (by positivity) hm h.margin ?_ hX hrange (r.implements _ _ _ _)).congr
    (fun _ _ _ => Peak.responds_iff _) (fun _ _ _ => Iff.rfl)
  have hp' : 0 < alphaQ sr.toReal fc.toReal q.toReal / gainA db.toReal := by positivity
  have ha : 0 < 1 + alphaQ sr.toReal fc.toReal q.toReal / gainA db.toReal := by linarith
  have AA : alphaQ sr.toReal fc.toReal q.toReal * gainA db.toReal ≤ G ^ 2 * (alphaQ sr.toReal fc.toReal q.toReal / gainA db.toReal) := by
    rw [mul_div_assoc', le_div_iff₀ hA]
    have := pow_le_pow_left₀ hA.le h.gain.le 2
    nlinarith
  have hpA : 0 < alphaQ sr.toReal fc.toReal q.toReal * gainA db.toReal := by positivity
  have c1 := abs_le.mp (Real.abs_cos_le_one (angle sr.toReal fc.toReal))
  have hpG : alphaQ sr.toReal fc.toReal q.toReal / gainA db.toReal ≤ G ^ 2 * (alphaQ sr.toReal fc.toReal q.toReal / gainA db.toReal) :=
    le_mul_of_one_le_left hp'.le hG2
  simp only [abs_div, abs_of_pos ha]
  rw [← add_div, ← add_div, ← add_div, ← add_div, div_le_iff₀ ha]
  have e1 : |-2 * Real.cos (angle sr.toReal fc.toReal)| ≤ 2 := by rw [abs_le]; constructor <;> linarith
  have e2 : |1 - alphaQ sr.toReal fc.toReal q.toReal / gainA db.toReal| ≤ 1 + alphaQ sr.toReal fc.toReal q.toReal / gainA db.toReal := by
    rw [abs_le]; constructor <;> linarith
  have e3 : |1 - alphaQ sr.toReal fc.toReal q.toReal * gainA db.toReal| ≤ 1 + alphaQ sr.toReal fc.toReal q.toReal * gainA db.toReal := by
    rw [abs_le]; constructor <;> linarith
  rw [abs_of_pos (show 0 < 1 + alphaQ sr.toReal fc.toReal q.toReal * gainA db.toReal by linarith)]
  linarith

omit hL hP hf hp hk in
theorem ShelfShape.sum {A R D E N M P Z : ℝ} (h : ShelfShape G A R D E N M P Z) (hA : 0 < A) (gle : A ≤ G) (hG : 1 ≤ G) (hR1 : 1 ≤ R) :
    |A * (E + P) / (D + P)| + |2 * A * M / (D + P)| + |A * (E - P) / (D + P)| + |2 * N / (D + P)| + |(D - P) / (D + P)| ≤ 7 * G ^ 2 := by
  obtain ⟨hD0, _⟩ := h.den hA hG hR1
  obtain ⟨hP, hPZ, hZ, hD, hE, hE0, hN, hM⟩ := h
  have hG2' : 1 ≤ G ^ 2 := one_le_pow₀ hG
  have hAE : A * E ≤ G * (G * D) := mul_le_mul gle hE hE0 (by linarith)
  have hAP : A * P ≤ G ^ 2 * P := mul_le_mul_of_nonneg_right (by nlinarith) hP.le
  have hAE0 : 0 ≤ A * E := by positivity
  have hAP0 : 0 < A * P := by positivity
  have hd : 0 < D + P := by linarith
  have h1 : D + P ≤ G ^ 2 * (D + P) := le_mul_of_one_le_left hd.le hG2'
  have hAM : |2 * A * M| ≤ 2 * (A * E) := by
    rw [mul_assoc, abs_mul, abs_two, abs_mul, abs_of_pos hA]
    exact mul_le_mul_of_nonneg_left (mul_le_mul_of_nonneg_left hM hA.le) (by norm_num)
  have hNN : |2 * N| ≤ 2 * D := by rw [abs_mul, abs_two]; linarith
  have hDP : |D - P| ≤ D + P := by rw [abs_le]; constructor <;> linarith
  have hEP : |A * (E + P)| + |A * (E - P)| ≤ 2 * (G ^ 2 * (D + P)) := by
    rw [abs_of_nonneg (show 0 ≤ A * (E + P) by positivity)]
    have h0 : 0 ≤ G ^ 2 * P := by positivity
    have h0 : 0 ≤ G ^ 2 * D := by positivity
    rcases abs_cases (A * (E - P)) with ⟨h2, _⟩ | ⟨h2, _⟩ <;> rw [h2] <;> linarith
  have : 0 ≤ G ^ 2 * P := by positivity
  simp only [abs_div, abs_of_pos hd]
  rw [← add_div, ← add_div, ← add_div, ← add_div, div_le_iff₀ hd]
  linarith

/-- **C84**, outputs of the shelves. -/
theorem C84_shelves {X : ℝ} (h : ShelfResolved k G sr fc db slope) (hX : 0 ≤ X)
    (hrange : 191808 * G ^ 4 * (X + f.tiny) ≤ shelfMargin sr.toReal fc.toReal (gainA db.toReal) slope.toReal ^ 2 * 2 ^ f.emax) :
    (∀ (s : LowShelf (Fl L)) (r : LowShelf ℝ), Tracks (s.setCoefficients sr fc db slope)
      (r.setCoefficients sr.toReal fc.toReal db.toReal slope.toReal) X
      (gainBound f k G (slopeR (gainA db.toReal) slope.toReal) (shelfMargin sr.toReal fc.toReal (gainA db.toReal) slope.toReal) X)) ∧
    (∀ (s : HighShelf (Fl L)) (r : HighShelf ℝ), Tracks (s.setCoefficients sr fc db slope)
      (r.setCoefficients sr.toReal fc.toReal db.toReal slope.toReal) X
      (gainBound f k G (slopeR (gainA db.toReal) slope.toReal) (shelfMargin sr.toReal fc.toReal (gainA db.toReal) slope.toReal) X)) := by
  obtain ⟨w1, w2⟩ := h.within hL hP hf hp hk
  have hv := h.valid
  have hA := gainA_pos db.toReal
  have hG := h.gain.one_le
  have hR := one_le_slopeR hA hv.2.2.1 hv.2.2.2
  obtain ⟨m1, m2⟩ := shelf_poleMargins hA hv
  have hx := Real.abs_cos_le_one (angle sr.toReal fc.toReal)
  have hy : 0 < Real.sin (angle sr.toReal fc.toReal) := hv.params.sin_pos
  have hy1 := Real.sin_le_one (angle sr.toReal fc.toReal)
  have sl := (shelfShape (R := slopeR (gainA db.toReal) slope.toReal) hA h.gain.le h.gain.ge hG hR hx hy hy1).sum hA h.gain.le hG hR
  have sh := (shelfShape (R := slopeR (gainA db.toReal) slope.toReal) (x := -Real.cos (angle sr.toReal fc.toReal)) hA h.gain.le h.gain.ge hG hR
    (by rwa [abs_neg]) hy hy1).sum hA h.gain.le hG hR
  simp only [mul_neg, ← sub_eq_add_neg, sub_neg_eq_add] at sh
  refine ⟨fun s r => ?_, fun s r => ?_⟩
  · refine (gain_tracks (w1 s) hk hG (by linarith) m1 h.margin ?_ hX hrange (r.implements _ _ _ _)).congr
      (fun _ _ _ => LowShelf.responds_iff _) (fun _ _ _ => Iff.rfl)
    rw [show ∀ a b : ℝ, -2 * a / b = -(2 * a / b) from fun a b => by ring, abs_neg]
    exact sl
  · refine (gain_tracks (w2 s) hk hG (by linarith) m2 h.margin ?_ hX hrange (r.implements _ _ _ _)).congr
      (fun _ _ _ => HighShelf.responds_iff _) (fun _ _ _ => Iff.rfl)
    rw [show ∀ a b c : ℝ, -2 * a * b / c = -(2 * a * b / c) from fun a b c => by ring, abs_neg]
    exact sh

end

/-! ## Ranges of parameters -/

theorem gainIn_of {db d G : ℝ} (hd : |db| ≤ d) (h : (10 : ℝ) ^ (d / 40) ≤ G) : GainIn db G := by
  rw [abs_le] at hd
  have hG : 0 < G := lt_of_lt_of_le (by positivity) h
  have h1 : gainA db ≤ 10 ^ (d / 40) := Real.rpow_le_rpow_of_exponent_le (by norm_num) (by linarith)
  have h2 : (10 : ℝ) ^ (-(d / 40)) ≤ gainA db := Real.rpow_le_rpow_of_exponent_le (by norm_num) (by linarith)
  refine ⟨h1.trans h, ?_⟩
  calc (1 : ℝ) = 10 ^ (-(d / 40)) * 10 ^ (d / 40) := by rw [← Real.rpow_add (by norm_num)]; simp
    _ ≤ gainA db * G := mul_le_mul h2 h (by positivity) (gainA_pos _).le

theorem gainIn_twelve {db : ℝ} (h : |db| ≤ 12) : GainIn db 2 := by
  refine gainIn_of h ?_
  rw [show ((12 : ℝ) / 40) = (3 : ℕ) * ((10 : ℕ) : ℝ)⁻¹ by norm_num, Real.rpow_mul (by norm_num), Real.rpow_natCast]
  calc ((10 : ℝ) ^ 3) ^ (((10 : ℕ) : ℝ)⁻¹) ≤ (2 ^ 10) ^ (((10 : ℕ) : ℝ)⁻¹) := Real.rpow_le_rpow (by norm_num) (by norm_num) (by norm_num)
    _ = 2 := Real.pow_rpow_inv_natCast (by norm_num) (by norm_num)

theorem gainIn_six {db : ℝ} (h : |db| ≤ 6) : GainIn db 1.42 := by
  refine gainIn_of h ?_
  rw [show ((6 : ℝ) / 40) = (3 : ℕ) * ((20 : ℕ) : ℝ)⁻¹ by norm_num, Real.rpow_mul (by norm_num), Real.rpow_natCast]
  calc ((10 : ℝ) ^ 3) ^ (((20 : ℕ) : ℝ)⁻¹) ≤ (1.42 ^ 20) ^ (((20 : ℕ) : ℝ)⁻¹) := Real.rpow_le_rpow (by norm_num) (by norm_num) (by norm_num)
    _ = 1.42 := Real.pow_rpow_inv_natCast (by norm_num) (by norm_num)

theorem slopeR_le {A S G B : ℝ} (gle : A ≤ G) (gge : 1 ≤ A * G) (hA : 0 < A) (hS : 1 / 2 ≤ S) (hS1 : S ≤ 1) (hB : 0 ≤ B)
    (h : G + 1 / G + 2 ≤ B ^ 2) : slopeR A S ≤ B := by
  have h3 : 0 ≤ 1 / S - 1 := by rw [sub_nonneg, le_div_iff₀ (by linarith)]; linarith
  have h4 : 1 / S - 1 ≤ 1 := by rw [sub_le_iff_le_add, div_le_iff₀ (by linarith)]; linarith
  have hG : 0 < G := by linarith
  have h5 : A + 1 / A ≤ G + 1 / G := by
    rw [← sub_nonneg, show G + 1 / G - (A + 1 / A) = (G - A) * (A * G - 1) / (A * G) by field_simp; ring]
    exact div_nonneg (mul_nonneg (by linarith) (by linarith)) (by positivity)
  have h6 : 0 < A + 1 / A := by positivity
  unfold slopeR
  rw [Real.sqrt_le_left hB]
  nlinarith

theorem shelfMargin_ge {sr fc A S G B g r : ℝ} (hsr : 0 < sr) (hr : 0 < r) (h1 : r * sr ≤ fc) (h2 : fc ≤ (1 / 2 - r) * sr)
    (gle : A ≤ G) (gge : 1 ≤ A * G) (hA : 0 < A) (hB : slopeR A S ≤ B) (hg : G ≤ g ^ 2) (hg0 : 0 ≤ g) :
    2 * (4 * r / (2 * g + B)) ^ 2 ≤ shelfMargin sr fc A S := by
  have hy := sin_angle_ge hsr hr h1 h2
  have hy1 := Real.sin_le_one (angle sr fc)
  have hx := Real.abs_cos_le_one (angle sr fc)
  have hx0 := abs_nonneg (Real.cos (angle sr fc))
  have hR0 : 0 ≤ slopeR A S := Real.sqrt_nonneg _
  have hsq := Real.sqrt_pos.mpr hA
  have hsq2 := Real.mul_self_sqrt hA.le
  unfold shelfMargin
  rw [alphaS_eq]
  generalize Real.sin (angle sr fc) = y at hy hy1 ⊢
  generalize |Real.cos (angle sr fc)| = x at hx hx0 ⊢
  obtain ⟨R, eR⟩ : ∃ R, R = slopeR A S := ⟨_, rfl⟩
  rw [← eR] at hB hR0 ⊢
  obtain ⟨a, ea⟩ : ∃ a, a = Real.sqrt A := ⟨_, rfl⟩
  rw [← ea] at hsq hsq2 ⊢
  have hag : a ≤ g := by
    by_contra hn; rw [not_le] at hn; nlinarith
  have hag1 : 1 ≤ a * g := by
    by_contra hn; rw [not_le] at hn
    have h3 : (a * g) ^ 2 < 1 := pow_lt_one₀ (by positivity) hn (by norm_num)
    have h4 : (a * g) ^ 2 = A * g ^ 2 := by rw [← hsq2]; ring
    nlinarith
  have hden : A + 1 + |A - 1| * x + 2 * a * (y / 2 * R) ≤ a * (2 * g + B) := by
    have e1 : |A - 1| * x ≤ |A - 1| := mul_le_of_le_one_right (abs_nonneg _) hx
    have e2 : y * R ≤ B := by nlinarith
    have e3 := mul_le_mul_of_nonneg_left e2 hsq.le
    have e4 : A + 1 + |A - 1| ≤ a * (2 * g) := by
      rcases abs_cases (A - 1) with ⟨e, _⟩ | ⟨e, _⟩ <;> rw [e] <;> nlinarith
    linarith
  have hd0 : 0 < A + 1 + |A - 1| * x + 2 * a * (y / 2 * R) := by
    have h0 : 0 ≤ 2 * a * (y / 2 * R) := by
      have : 0 ≤ y := by linarith
      positivity
    have : 0 ≤ |A - 1| * x := by positivity
    linarith
  have hV : 0 < 2 * g + B := (pos_iff_pos_of_mul_pos (hd0.trans_le hden)).mp hsq
  calc 2 * (4 * r / (2 * g + B)) ^ 2 = 2 * A * (4 * r) ^ 2 / (a * (2 * g + B)) ^ 2 := by rw [← hsq2]; field_simp
    _ ≤ 2 * A * y ^ 2 / (A + 1 + |A - 1| * x + 2 * a * (y / 2 * R)) ^ 2 := by
      refine div_le_div₀ (by positivity) (mul_le_mul_of_nonneg_left (pow_le_pow_left₀ (by positivity) hy 2) (by positivity)) (by positivity)
        (pow_le_pow_left₀ hd0.le hden 2)

theorem peakResolved_of {k r Q G X : ℝ} (hr : 0 < r) (hQ1 : 1 ≤ Q) (hk : 0 ≤ k) (hg : GainIn db.toReal G) (hG1 : G ≤ 2)
    (hu : 7920 * ((k + 1) * f.u) * G ^ 4 ≤ (2 * r / (Q * G + 2 * r)) ^ 2) (hQf : Q ≤ 2 ^ f.p) (hsr : sr.Finite)
    (hfc : fc.Finite) (hq : q.Finite) (hdb : db.Finite) (hd : |db.toReal| ≤ 12) (h1 : 1 ≤ sr.toReal) (h2 : 8 * sr.toReal ≤ 2 ^ f.emax)
    (h3 : r * sr.toReal ≤ fc.toReal) (h4 : fc.toReal ≤ (1 / 2 - r) * sr.toReal) (h5 : 1 ≤ q.toReal) (h6 : q.toReal ≤ Q)
    (hX : 191808 * G ^ 4 * (X + f.tiny) ≤ (2 * r / (Q * G + 2 * r)) ^ 4 * 2 ^ f.emax) :
    (2 * r / (Q * G + 2 * r)) ^ 2 ≤ rbjMargin sr.toReal fc.toReal (q.toReal * gainA db.toReal) ∧
    gainErr f k G (1 / (2 * q.toReal)) ≤ 990 * ((k + 1) * f.u) * G ^ 4 ∧ PeakResolved k G sr fc db q ∧
      191808 * G ^ 4 * (X + f.tiny) ≤ rbjMargin sr.toReal fc.toReal (q.toReal * gainA db.toReal) ^ 2 * 2 ^ f.emax := by
  have hA := gainA_pos db.toReal
  have hG := hg.one_le
  have hu0 := f.u_pos
  have hge : 1 / 2 ≤ gainA db.toReal := by have := hg.ge; nlinarith
  have hm := rbjMargin_ge (sr := sr.toReal) (fc := fc.toReal) (q := q.toReal * gainA db.toReal) (r := r) (Q := Q * G) (by linarith) hr h3 h4
    (by nlinarith) (mul_le_mul h6 hg.le hA.le (by linarith))
  have he : gainErr f k G (1 / (2 * q.toReal)) ≤ 990 * ((k + 1) * f.u) * G ^ 4 := by
    have : 1 / (2 * q.toReal) ≤ 1 / 2 := one_div_le_one_div_of_le (by norm_num) (by linarith)
    unfold gainErr
    have := mul_le_mul_of_nonneg_left this (show 0 ≤ (k + 1) * f.u * G ^ 4 by positivity)
    linarith
  refine ⟨hm, he, ⟨⟨hsr, h1, h2⟩, hfc, ⟨hdb, by linarith⟩, hg, ⟨hq, h6.trans hQf⟩, ⟨?_, ?_, by linarith⟩, by linarith⟩, ?_⟩
  · nlinarith
  · nlinarith
  · refine hX.trans (mul_le_mul_of_nonneg_right ?_ (by positivity))
    rw [show (2 * r / (Q * G + 2 * r)) ^ 4 = ((2 * r / (Q * G + 2 * r)) ^ 2) ^ 2 by ring]
    exact pow_le_pow_left₀ (by positivity) hm 2

theorem shelfResolved_of {k r B g G X : ℝ} (hr : 0 < r) (hk : 0 ≤ k) (hgain : GainIn db.toReal G) (hg : G ≤ g ^ 2) (hg0 : 0 ≤ g)
    (hB : 0 ≤ B) (hB2 : G + 1 / G + 2 ≤ B ^ 2) (hu : 5280 * ((k + 1) * f.u) * (G ^ 4 * (1 + B)) ≤ 2 * (4 * r / (2 * g + B)) ^ 2)
    (hsr : sr.Finite) (hfc : fc.Finite) (hsl : slope.Finite) (hdb : db.Finite) (hd : |db.toReal| ≤ 12) (h1 : 1 ≤ sr.toReal)
    (h2 : 8 * sr.toReal ≤ 2 ^ f.emax) (h2' : 10 * G ≤ 2 ^ f.emax) (h3 : r * sr.toReal ≤ fc.toReal) (h4 : fc.toReal ≤ (1 / 2 - r) * sr.toReal)
    (h5 : 1 / 2 ≤ slope.toReal) (h6 : slope.toReal ≤ 1)
    (hX : 191808 * G ^ 4 * (X + f.tiny) ≤ 4 * (4 * r / (2 * g + B)) ^ 4 * 2 ^ f.emax) :
    2 * (4 * r / (2 * g + B)) ^ 2 ≤ shelfMargin sr.toReal fc.toReal (gainA db.toReal) slope.toReal ∧
    gainErr f k G (slopeR (gainA db.toReal) slope.toReal) ≤ 660 * ((k + 1) * f.u) * (G ^ 4 * (1 + B)) ∧ ShelfResolved k G sr fc db slope ∧
      191808 * G ^ 4 * (X + f.tiny) ≤ shelfMargin sr.toReal fc.toReal (gainA db.toReal) slope.toReal ^ 2 * 2 ^ f.emax := by
  have hA := gainA_pos db.toReal
  have hG := hgain.one_le
  have hu0 := f.u_pos
  have hR := slopeR_le hgain.le hgain.ge hA h5 h6 hB hB2
  have hm := shelfMargin_ge (sr := sr.toReal) (fc := fc.toReal) (by linarith) hr h3 h4 hgain.le hgain.ge hA hR hg hg0
  have he : gainErr f k G (slopeR (gainA db.toReal) slope.toReal) ≤ 660 * ((k + 1) * f.u) * (G ^ 4 * (1 + B)) := by
    unfold gainErr
    have := mul_le_mul_of_nonneg_left hR (show 0 ≤ (k + 1) * f.u * G ^ 4 by positivity)
    linarith
  have he0 : (0 : ℝ) < 2 ^ f.emax := by positivity
  refine ⟨hm, he, ⟨⟨hsr, h1, h2⟩, hfc, ⟨hdb, by linarith⟩, hgain, ⟨hsl, by nlinarith⟩, ⟨?_, ?_, by linarith, h6⟩, by linarith⟩, ?_⟩
  · nlinarith
  · nlinarith
  · refine hX.trans (mul_le_mul_of_nonneg_right ?_ (by positivity))
    rw [show 4 * (4 * r / (2 * g + B)) ^ 4 = (2 * (4 * r / (2 * g + B)) ^ 2) ^ 2 by ring]
    exact pow_le_pow_left₀ (by positivity) hm 2

/-- **C84** in f32: frequencies from 1/8 to 3/8 of the sample rate, gains up to 6 dB, `q` from 1 to 2, slopes from 1/2 to 1 are safe. -/
theorem C84_f32 {L : Libm binary32} (hL : AccurateTrig L 2) (hP : AccuratePow L 2) {sr fc db : Fl L} (hsr : sr.Finite) (hfc : fc.Finite)
    (hdb : db.Finite) (h1 : 1 ≤ sr.toReal) (h2 : sr.toReal ≤ 2 ^ 100) (h3 : sr.toReal / 8 ≤ fc.toReal) (h4 : fc.toReal ≤ 3 / 8 * sr.toReal)
    (hd : |db.toReal| ≤ 6) :
    (∀ q : Fl L, q.Finite → 1 ≤ q.toReal → q.toReal ≤ 2 → ∀ s : Peak (Fl L), StaysFinite (s.setCoefficients sr fc db q) (2 ^ 60)) ∧
    (∀ slope : Fl L, slope.Finite → 1 / 2 ≤ slope.toReal → slope.toReal ≤ 1 →
      (∀ s : LowShelf (Fl L), StaysFinite (s.setCoefficients sr fc db slope) (2 ^ 60)) ∧
      (∀ s : HighShelf (Fl L), StaysFinite (s.setCoefficients sr fc db slope) (2 ^ 60))) := by
  have hg := gainIn_six hd
  constructor
  · intro q hq h5 h6 s
    obtain ⟨_, _, hR, hX⟩ := peakResolved_of (k := 2) (r := 1 / 8) (Q := 2) (X := 2 ^ 60) (by norm_num) (by norm_num) (by norm_num) hg (by norm_num)
      (by norm_num [Fmt.u, binary32]) (by norm_num [binary32]) hsr hfc hq hdb (by linarith) h1 (by norm_num [binary32]; linarith)
      (by linarith) (by linarith) h5 h6 (by norm_num [Fmt.tiny, binary32])
    exact (C84_peak hL hP binary32_roomy (by decide) (by norm_num) hR (by positivity) hX s .new).finite
  · intro slope hsl h5 h6
    obtain ⟨_, _, hR, hX⟩ := shelfResolved_of (k := 2) (r := 1 / 8) (B := 2.04) (g := 1.2) (X := 2 ^ 60) (by norm_num) (by norm_num) hg
      (by norm_num) (by norm_num) (by norm_num) (by norm_num)
      (by norm_num [Fmt.u, binary32]) hsr hfc hsl hdb (by linarith) h1 (by norm_num [binary32]; linarith) (by norm_num [binary32])
      (by linarith) (by linarith) h5 h6 (by norm_num [Fmt.tiny, binary32])
    obtain ⟨t1, t2⟩ := C84_shelves hL hP binary32_roomy (by decide) (by norm_num) hR (by positivity) hX
    exact ⟨fun s => (t1 s .new).finite, fun s => (t2 s .new).finite⟩

/-- **C84** in f64: frequencies from 1/16 to 7/16 of the sample rate, gains up to 12 dB, `q` from 1 to 2, slopes from 1/2 to 1,
samples in [-1, 1]. -/
theorem C84_f64 {L : Libm binary64} (hL : AccurateTrig L 2) (hP : AccuratePow L 2) {sr fc db : Fl L} (hsr : sr.Finite) (hfc : fc.Finite)
    (hdb : db.Finite) (h1 : 1 ≤ sr.toReal) (h2 : sr.toReal ≤ 2 ^ 100) (h3 : sr.toReal / 16 ≤ fc.toReal) (h4 : fc.toReal ≤ 7 / 16 * sr.toReal)
    (hd : |db.toReal| ≤ 12) :
    (∀ q : Fl L, q.Finite → 1 ≤ q.toReal → q.toReal ≤ 2 → ∀ (s : Peak (Fl L)) (r : Peak ℝ),
      Tracks (s.setCoefficients sr fc db q) (r.setCoefficients sr.toReal fc.toReal db.toReal q.toReal) 1 (1 / 1000)) ∧
    (∀ slope : Fl L, slope.Finite → 1 / 2 ≤ slope.toReal → slope.toReal ≤ 1 →
      (∀ (s : LowShelf (Fl L)) (r : LowShelf ℝ),
        Tracks (s.setCoefficients sr fc db slope) (r.setCoefficients sr.toReal fc.toReal db.toReal slope.toReal) 1 (1 / 10000)) ∧
      (∀ (s : HighShelf (Fl L)) (r : HighShelf ℝ),
        Tracks (s.setCoefficients sr fc db slope) (r.setCoefficients sr.toReal fc.toReal db.toReal slope.toReal) 1 (1 / 10000))) := by
  have hbig : (2 : ℝ) ^ (103 : ℤ) ≤ 2 ^ binary64.emax := zpow_le_zpow_right₀ one_le_two (by decide)
  have ht : binary64.tiny ≤ binary64.u / 1000 := by
    have : binary64.tiny ≤ (2 : ℝ) ^ (-100 : ℤ) := by
      unfold Fmt.tiny
      have : (2 : ℝ) ^ binary64.emin ≤ 2 ^ (-100 : ℤ) := zpow_le_zpow_right₀ one_le_two (by decide)
      have : (0 : ℝ) < 2 ^ binary64.emin := by positivity
      linarith
    refine this.trans ?_
    rw [show binary64.u = 1 / 2 ^ 53 from rfl]
    norm_num
  have hu : binary64.u = 1 / 2 ^ 53 := rfl
  have hg := gainIn_twelve hd
  norm_num at hbig h2
  have bound : ∀ {R m M E B : ℝ}, 0 < M → M ≤ m → gainErr binary64 2 2 R ≤ E → 0 ≤ B → 36288 * 2 ^ 4 * (1.001 * binary64.u) + 34 * 2 ^ 2 * E ≤ B * M ^ 2 →
      gainBound binary64 2 2 R m 1 ≤ B := by
    intro R m M E B hM hm hE hB h
    unfold gainBound
    rw [div_le_iff₀ (by have := hM.trans_le hm; positivity)]
    have := mul_le_mul_of_nonneg_left (pow_le_pow_left₀ hM.le hm 2) hB
    linarith
  constructor
  · intro q hq h5 h6 s r
    obtain ⟨hm, he, hR, hX⟩ := peakResolved_of (k := 2) (r := 1 / 16) (Q := 2) (X := 1) (by norm_num) (by norm_num) (by norm_num) hg (by norm_num)
      (by rw [hu]; norm_num) (by norm_num [binary64]) hsr hfc hq hdb hd h1 (by linarith)
      (by linarith) (by linarith) h5 h6 (by rw [hu] at ht; norm_num at ht ⊢; linarith)
    exact (C84_peak hL hP binary64_roomy (by decide) (by norm_num) hR zero_le_one hX s r).le
      (bound (by norm_num) hm he (by norm_num) (by rw [hu]; norm_num))
  · intro slope hsl h5 h6
    obtain ⟨hm, he, hR, hX⟩ := shelfResolved_of (k := 2) (r := 1 / 16) (B := 2.13) (g := 1.42) (X := 1) (by norm_num) (by norm_num) hg
      (by norm_num) (by norm_num) (by norm_num) (by norm_num)
      (by rw [hu]; norm_num) hsr hfc hsl hdb hd h1 (by linarith) (by linarith)
      (by linarith) (by linarith) h5 h6 (by rw [hu] at ht; norm_num at ht ⊢; linarith)
    obtain ⟨t1, t2⟩ := C84_shelves hL hP binary64_roomy (by decide) (by norm_num) hR zero_le_one hX
    have hb := bound (M := 2 * (4 * (1 / 16) / (2 * 1.42 + 2.13)) ^ 2) (B := 1 / 10000) (by norm_num) hm he (by norm_num) (by rw [hu]; norm_num)
    exact ⟨fun s r => (t1 s r).le hb, fun s r => (t2 s r).le hb⟩

/-! ## The hypotheses are met -/

/-- Libraries that round correctly meet the assumption. -/
theorem AccuratePow.of_rounded (hf : f.Roomy) (hp : 12 ≤ f.p) (h : ∀ x y : Fl L, x.Finite → y.Finite →
    FloatOps.powf x y = FP.ofReal f false (x.toReal ^ y.toReal)) : AccuratePow L 2 := by
  have hu := f.u_pos
  obtain ⟨c1, c2⟩ := int_const (L := L) (by omega) (z := 10) (by norm_num)
  have c1' : (ofF64 (.lit 10) : Fl L).Finite := c1
  have c2' : (ofF64 (.lit 10) : Fl L).toReal = 10 := by have := c2; push_cast at this; exact this
  refine ⟨fun x hx hx4 => ?_⟩
  rw [h _ _ c1' hx, c2']
  rw [abs_le] at hx4
  have lo : (10 : ℝ) ^ (-4 : ℝ) ≤ 10 ^ x.toReal := Real.rpow_le_rpow_of_exponent_le (by norm_num) hx4.1
  have hi : (10 : ℝ) ^ x.toReal ≤ 10 ^ (4 : ℝ) := Real.rpow_le_rpow_of_exponent_le (by norm_num) hx4.2
  norm_num at lo hi
  have p0 : (0 : ℝ) < 10 ^ x.toReal := by positivity
  generalize (10 : ℝ) ^ x.toReal = v at *
  have hu12 : f.u ≤ 1 / 4096 := by
    have h1 := f.u_mul
    have h2 : (2 : ℝ) ^ 12 ≤ 2 ^ f.p := pow_le_pow_right₀ one_le_two hp
    have := mul_le_mul_of_nonneg_left h2 hu.le
    norm_num at this
    linarith
  have he := hf.emax
  have he' : 10000 ≤ (2 : ℝ) ^ f.emax := by
    have := mul_le_mul_of_nonneg_right hu12 (show (0 : ℝ) ≤ 2 ^ f.emax by positivity)
    linarith
  have ht := hf.tiny
  have hu2 : f.u * f.u ≤ 1 / 4096 * (1 / 4096) := mul_le_mul hu12 hu12 hu.le (by norm_num)
  have := FP.ofReal_of_noOvf (f := f) (s := false) (x := v) (noOvf_of_le_emax (by rw [abs_of_pos p0]; linarith))
  refine ⟨this.1, ?_⟩
  have h := abs_rnd_sub_le_u f v
  rw [abs_of_pos p0, ← this.2] at h
  refine h.trans ?_
  nlinarith

/-- The conditions of `C84_f32` and `C84_f64`: 48 kHz, 12 kHz, 6 dB, `q = slope = 1`, with a library that rounds correctly. -/
example : (∃ (L : Libm binary32) (sr fc db : Fl L), AccurateTrig L 2 ∧ AccuratePow L 2 ∧ sr.Finite ∧ fc.Finite ∧ db.Finite ∧ sr.toReal = 48000 ∧
      fc.toReal = 12000 ∧ db.toReal = 6 ∧ (one : Fl L).Finite ∧ (one : Fl L).toReal = 1) ∧
    (∃ (L : Libm binary64) (sr fc db : Fl L), AccurateTrig L 2 ∧ AccuratePow L 2 ∧ sr.Finite ∧ fc.Finite ∧ db.Finite ∧ sr.toReal = 48000 ∧
      fc.toReal = 12000 ∧ db.toReal = 6 ∧ (one : Fl L).Finite ∧ (one : Fl L).toReal = 1) ∧
    (48000 : ℝ) / 8 ≤ 12000 ∧ (12000 : ℝ) ≤ 3 / 8 * 48000 ∧ |(6 : ℝ)| ≤ 6 := by
  have key : ∀ (f : Fmt) (_ : f.Roomy) (_ : 17 ≤ f.p) (_ : (100000 : ℝ) ≤ f.lim), ∃ (L : Libm f) (sr fc db : Fl L), AccurateTrig L 2 ∧ AccuratePow L 2 ∧
      sr.Finite ∧ fc.Finite ∧ db.Finite ∧ sr.toReal = 48000 ∧ fc.toReal = 12000 ∧ db.toReal = 6 ∧ (one : Fl L).Finite ∧ (one : Fl L).toReal = 1 := by
    intro f hf hp hlim
    let L : Libm f :=
      { exp := id, cos := fun x => FP.ofReal f false (Real.cos x.toReal), sin := fun x => FP.ofReal f false (Real.sin x.toReal), log10 := id,
        powf := fun x y => FP.ofReal f false (x.toReal ^ y.toReal) }
    have h2 : 2 ^ 17 ≤ 2 ^ f.p := Nat.pow_le_pow_right (by norm_num) hp
    have ex : ∀ n : ℕ, n ≤ 50000 → ∃ a : Fl L, a.Finite ∧ a.toReal = n := fun n hn => by
      have hn' : (n : ℝ) ≤ 50000 := by exact_mod_cast hn
      exact exists_of_isRep L (isRep_nat (by omega)) (by rw [abs_of_nonneg (by positivity)]; linarith)
    obtain ⟨a, ha1, ha2⟩ := ex 48000 (by norm_num)
    obtain ⟨b, hb1, hb2⟩ := ex 12000 (by norm_num)
    obtain ⟨c, hc1, hc2⟩ := ex 6 (by norm_num)
    exact ⟨L, a, b, c, .of_rounded hf (fun _ _ => rfl) (fun _ _ => rfl), .of_rounded hf (by omega) (fun _ _ _ _ => rfl), ha1, hb1, hc1,
      by exact_mod_cast ha2, by exact_mod_cast hb2, by exact_mod_cast hc2, one_finite, one_toReal⟩
  refine ⟨key _ binary32_roomy (by decide) ?_, key _ binary64_roomy (by decide) ?_, by norm_num, by norm_num, by norm_num⟩
  · have : (2 : ℝ) ^ (101 : ℤ) ≤ binary32.lim := zpow_le_zpow_right₀ one_le_two (by decide)
    norm_num at this ⊢; linarith
  · have : (2 : ℝ) ^ (101 : ℤ) ≤ binary64.lim := zpow_le_zpow_right₀ one_le_two (by decide)
    norm_num at this ⊢; linarith

end Rasp
