import Verif.Lemmas.RbjFloat

/-!
# C83: the rbj filters in floating point approximate the exact ones

From the parameters to the output: rounding of the angle, errors of the library's `cos` and `sin`, rounding of the
coefficients, rounding in every step of the filter.
-/

namespace Rasp
open FloatOps Fl
variable {f : Fmt} {L : Libm f} {k : ℝ} {sr fc q : Fl L}

/-- The coefficients of `s` are finite and within `E` of those of `r`. Both have empty memories. -/
def CoeffsClose (s : Biquad2 (Fl L)) (r : Biquad2 ℝ) (E : ℝ) : Prop := CoeffsWithin s r.b0 r.b1 r.b2 r.a1 r.a2 E

/-- Division by `a0`. -/
theorem store_approx (hk : 0 ≤ k) (h : Scale f k q.toReal) (hq : 0 < q.toReal) {n d : Fl L} {t r : ℝ}
    (hn : Approx n t ((2 * k + 32) * f.u * (1 + 1 / (2 * q.toReal))))
    (hd : Approx d r ((k + 18) * f.u * (1 + 1 / (2 * q.toReal)))) (hr : 1 ≤ r) (ht : |t| ≤ 2 * r) :
    Approx (n /. d) (t / r) (coeffErr f k q.toReal) := by
  unfold coeffErr
  obtain ⟨H, hH⟩ : ∃ H, H = 1 + 1 / (2 * q.toReal) := ⟨_, rfl⟩
  have hH1 : 1 ≤ H := by rw [hH]; have : 0 < 1 / (2 * q.toReal) := by positivity
                         linarith
  rw [← hH] at hn hd ⊢
  have he := h.e
  rw [← hH] at he
  have hu := f.u_pos
  have h1 : f.u ≤ f.u * H := by nlinarith
  have k0 : 0 ≤ k * (f.u * H) := by positivity
  have t1 := h.tiny
  have em := h.emax
  have em8 : 8 ≤ (2 : ℝ) ^ f.emax := by nlinarith [h.u]
  have hd32 : (k + 18) * f.u * H ≤ 1 / 32 := by nlinarith
  have hq2 : |t / r| ≤ 2 := by
    rw [abs_div, abs_of_pos (show 0 < r by linarith), div_le_iff₀ (by linarith)]; exact ht
  have d0 := hd.nonneg
  refine hn.div hd (x := (4.2 * k + 71) * f.u * H) (B := 2.2) (by linarith) ?_ ?_ (by linarith) ?_
  · have e1 : (2 * k + 32) * f.u * H + |t / r| * ((k + 18) * f.u * H) ≤ (4 * k + 68) * f.u * H := by
      have := mul_le_mul_of_nonneg_right hq2 d0
      linarith
    have e2 : (4.2 * k + 71) * f.u * H * (31 / 32) ≤ (4.2 * k + 71) * f.u * H * (r - (k + 18) * f.u * H) :=
      mul_le_mul_of_nonneg_left (by linarith) (by positivity)
    linarith
  · linarith
  · linarith

theorem rbjStore_within (hk : 0 ≤ k) (h : Scale f k q.toReal) (hv : ValidParams sr.toReal fc.toReal q.toReal) (P : Parts k sr fc q)
    {s : Biquad2 (Fl L)} {b0 b1 b2 : Fl L} {n0 n1 n2 : ℝ}
    (h0 : Approx b0 n0 ((2 * k + 32) * f.u * (1 + 1 / (2 * q.toReal))))
    (h1 : Approx b1 n1 ((2 * k + 32) * f.u * (1 + 1 / (2 * q.toReal))))
    (h2 : Approx b2 n2 ((2 * k + 32) * f.u * (1 + 1 / (2 * q.toReal))))
    (l0 : |n0| ≤ 2 * (1 + alphaQ sr.toReal fc.toReal q.toReal)) (l1 : |n1| ≤ 2 * (1 + alphaQ sr.toReal fc.toReal q.toReal))
    (l2 : |n2| ≤ 2 * (1 + alphaQ sr.toReal fc.toReal q.toReal)) :
    CoeffsWithin (rbjStore s b0 b1 b2 (one +. flAlpha sr fc q) (neg two *. cos (flAngle sr fc)) (one -. flAlpha sr fc q))
      (n0 / (1 + alphaQ sr.toReal fc.toReal q.toReal)) (n1 / (1 + alphaQ sr.toReal fc.toReal q.toReal))
      (n2 / (1 + alphaQ sr.toReal fc.toReal q.toReal))
      (-2 * Real.cos (angle sr.toReal fc.toReal) / (1 + alphaQ sr.toReal fc.toReal q.toReal))
      ((1 - alphaQ sr.toReal fc.toReal q.toReal) / (1 + alphaQ sr.toReal fc.toReal q.toReal)) (coeffErr f k q.toReal) := by
  have hα := hv.alphaQ_pos
  have hq : 0 < q.toReal := hv.2.2
  have hu := f.u_pos
  have c1 := Real.abs_cos_le_one (angle sr.toReal fc.toReal)
  have hH : 0 < 1 / (2 * q.toReal) := by positivity
  have hr : 1 ≤ 1 + alphaQ sr.toReal fc.toReal q.toReal := by linarith
  have w1 := P.twice.le (E := (2 * k + 32) * f.u * (1 + 1 / (2 * q.toReal))) (by
    have : 0 ≤ (2 * k + 32) * f.u * (1 / (2 * q.toReal)) := by positivity
    nlinarith)
  have w2 := P.minus.le (E := (2 * k + 32) * f.u * (1 + 1 / (2 * q.toReal))) (by
    have : 0 ≤ f.u * (1 + 1 / (2 * q.toReal)) := by positivity
    nlinarith)
  exact ⟨store_approx hk h hq h0 P.plus hr l0, store_approx hk h hq h1 P.plus hr l1, store_approx hk h hq h2 P.plus hr l2,
    store_approx hk h hq w1 P.plus hr (by rw [abs_mul]; norm_num; linarith),
    store_approx hk h hq w2 P.plus hr (by rw [abs_le]; constructor <;> linarith),
    ⟨zero_finite, zero_toReal⟩, ⟨zero_finite, zero_toReal⟩⟩

section
variable (hL : AccurateTrig L k) (hf : f.Roomy) (hk : 0 ≤ k) (h : Resolved k sr fc q)
include hL hf hk h

/-- The cookbook numerators. -/
theorem Resolved.numerators :
    Approx (one -. cos (flAngle sr fc)) (1 - Real.cos (angle sr.toReal fc.toReal)) ((k + 17) * f.u) ∧
    Approx (one +. cos (flAngle sr fc)) (1 + Real.cos (angle sr.toReal fc.toReal)) ((k + 17) * f.u) ∧
    Approx (neg one -. cos (flAngle sr fc)) (-1 - Real.cos (angle sr.toReal fc.toReal)) ((k + 17) * f.u) ∧
    Approx ((one -. cos (flAngle sr fc)) /. two) ((1 - Real.cos (angle sr.toReal fc.toReal)) / 2) ((k + 17) * f.u) ∧
    Approx ((one +. cos (flAngle sr fc)) /. two) ((1 + Real.cos (angle sr.toReal fc.toReal)) / 2) ((k + 17) * f.u) ∧
    Approx (q *. flAlpha sr fc q) (q.toReal * alphaQ sr.toReal fc.toReal q.toReal) ((k + 17) * f.u) ∧
    Approx (neg q *. flAlpha sr fc q) (-q.toReal * alphaQ sr.toReal fc.toReal q.toReal) ((k + 17) * f.u) := by
  obtain ⟨u1, uh, ue, t1, t2, em⟩ := h.scale hf hk
  have P := h.parts hL hf hk
  have hu := f.u_pos
  have hq : 0 < q.toReal := h.valid.2.2
  have k0 : 0 ≤ k * f.u := by positivity
  have em8 : 8 ≤ (2 : ℝ) ^ f.emax := by nlinarith
  have c1 := abs_le.mp (Real.abs_cos_le_one (angle sr.toReal fc.toReal))
  have s0 := h.valid.sin_pos
  have s1 := Real.sin_le_one (angle sr.toReal fc.toReal)
  have eα : q.toReal * alphaQ sr.toReal fc.toReal q.toReal = Real.sin (angle sr.toReal fc.toReal) / 2 := by
    unfold alphaQ; field_simp
  have a1 : Approx (one -. cos (flAngle sr fc)) (1 - Real.cos (angle sr.toReal fc.toReal)) ((k + 17) * f.u) := by
    refine Approx.sub .one P.cos (B := 2.3) ?_ (by linarith) (by linarith)
    rw [abs_of_nonneg (by linarith)]; linarith
  have a2 : Approx (one +. cos (flAngle sr fc)) (1 + Real.cos (angle sr.toReal fc.toReal)) ((k + 17) * f.u) := by
    refine Approx.add .one P.cos (B := 2.3) ?_ (by linarith) (by linarith)
    rw [abs_of_nonneg (by linarith)]; linarith
  refine ⟨a1, a2, ?_, ?_, ?_, ?_, ?_⟩
  · refine Approx.sub Approx.one.neg P.cos (B := 2.3) ?_ (by linarith) (by linarith)
    rw [abs_of_nonpos (by linarith)]; linarith
  · refine a1.div .two (x := (k + 17) * f.u / 2) (B := 1.3) (by norm_num) (by linarith) ?_ (by linarith) (by linarith)
    rw [abs_of_nonneg (by linarith)]; linarith
  · refine a2.div .two (x := (k + 17) * f.u / 2) (B := 1.3) (by norm_num) (by linarith) ?_ (by linarith) (by linarith)
    rw [abs_of_nonneg (by linarith)]; linarith
  · refine Approx.mul (.refl h.hq.1) P.alpha (x := (k + 16) * f.u / 2) (B := 1.3) (le_of_eq ?_) ?_ (by linarith) (by linarith)
    · rw [abs_of_pos hq]; field_simp; ring
    · rw [eα, abs_of_nonneg (by linarith)]; linarith
  · refine Approx.mul (Approx.neg (.refl h.hq.1)) P.alpha (x := (k + 16) * f.u / 2) (B := 1.3) (le_of_eq ?_) ?_ (by linarith)
      (by linarith)
    · rw [abs_neg, abs_of_pos hq]; field_simp; ring
    · rw [neg_mul, abs_neg, eα, abs_of_nonneg (by linarith)]; linarith

omit hL hf in
theorem Resolved.err_le {e : ℝ} (he : e ≤ (2 * k + 32) * f.u) : e ≤ (2 * k + 32) * f.u * (1 + 1 / (2 * q.toReal)) := by
  have hq : 0 < q.toReal := h.valid.2.2
  have hu := f.u_pos
  have : 0 ≤ (2 * k + 32) * f.u * (1 / (2 * q.toReal)) := by positivity
  linarith

/-- **C83**, coefficients: those stored by `set_coefficients` are within `coeffErr` of the ones the same code computes
in exact arithmetic. -/
theorem C83_coefficients :
    (∀ (s : LowPass (Fl L)) (r : LowPass ℝ), CoeffsClose (s.setCoefficients sr fc q).biquad
      (r.setCoefficients sr.toReal fc.toReal q.toReal).biquad (coeffErr f k q.toReal)) ∧
    (∀ (s : HighPass (Fl L)) (r : HighPass ℝ), CoeffsClose (s.setCoefficients sr fc q).biquad
      (r.setCoefficients sr.toReal fc.toReal q.toReal).biquad (coeffErr f k q.toReal)) ∧
    (∀ (s : BandPass1 (Fl L)) (r : BandPass1 ℝ), CoeffsClose (s.setCoefficients sr fc q).biquad
      (r.setCoefficients sr.toReal fc.toReal q.toReal).biquad (coeffErr f k q.toReal)) ∧
    (∀ (s : BandPass2 (Fl L)) (r : BandPass2 ℝ), CoeffsClose (s.setCoefficients sr fc q).biquad
      (r.setCoefficients sr.toReal fc.toReal q.toReal).biquad (coeffErr f k q.toReal)) ∧
    (∀ (s : BandStop (Fl L)) (r : BandStop ℝ), CoeffsClose (s.setCoefficients sr fc q).biquad
      (r.setCoefficients sr.toReal fc.toReal q.toReal).biquad (coeffErr f k q.toReal)) ∧
    (∀ (s : AllPass (Fl L)) (r : AllPass ℝ), CoeffsClose (s.setCoefficients sr fc q).biquad
      (r.setCoefficients sr.toReal fc.toReal q.toReal).biquad (coeffErr f k q.toReal)) := by
  have hs := h.scale hf hk
  have P := h.parts hL hf hk
  obtain ⟨a1, a2, a3, a4, a5, a6, a7⟩ := h.numerators hL hf hk
  have hv := h.valid
  have hα := hv.alphaQ_pos
  have hq : 0 < q.toReal := hv.2.2
  have hu := f.u_pos
  have hH : 0 < 1 / (2 * q.toReal) := by positivity
  have c1 := abs_le.mp (Real.abs_cos_le_one (angle sr.toReal fc.toReal))
  have s0 := hv.sin_pos
  have s1 := Real.sin_le_one (angle sr.toReal fc.toReal)
  have eα : q.toReal * alphaQ sr.toReal fc.toReal q.toReal = Real.sin (angle sr.toReal fc.toReal) / 2 := by
    unfold alphaQ; field_simp
  have k0 : 0 ≤ k * f.u := by positivity
  have le := fun {e : ℝ} => h.err_le hk (e := e)
  have e17 := le (e := (k + 17) * f.u) (by nlinarith)
  have e31 := le (e := (2 * k + 31) * f.u) (by nlinarith)
  have e0 := le (e := 0) (by positivity)
  have e18 : (k + 18) * f.u * (1 + 1 / (2 * q.toReal)) ≤ (2 * k + 32) * f.u * (1 + 1 / (2 * q.toReal)) := by
    have : 0 ≤ f.u * (1 + 1 / (2 * q.toReal)) := by positivity
    nlinarith
  have e16 : (k + 16) * f.u * (1 / (2 * q.toReal)) ≤ (2 * k + 32) * f.u * (1 + 1 / (2 * q.toReal)) := by
    have : 0 ≤ f.u * (1 / (2 * q.toReal)) := by positivity
    nlinarith
  refine ⟨fun s r => ?_, fun s r => ?_, fun s r => ?_, fun s r => ?_, fun s r => ?_, fun s r => ?_⟩
  · have := rbjStore_within (s := s.biquad) hk hs hv P (a4.le e17) (a1.le e17) (a4.le e17) (by rw [abs_of_nonneg (by linarith)]; linarith)
      (by rw [abs_of_nonneg (by linarith)]; linarith) (by rw [abs_of_nonneg (by linarith)]; linarith)
    exact this
  · have := rbjStore_within (s := s.biquad) hk hs hv P (a5.le e17) (a3.le e17) (a5.le e17) (by rw [abs_of_nonneg (by linarith)]; linarith)
      (by rw [abs_of_nonpos (by linarith)]; linarith) (by rw [abs_of_nonneg (by linarith)]; linarith)
    exact this
  · have := rbjStore_within (s := s.biquad) hk hs hv P (a6.le e17) (Approx.zero.le e0) (a7.le e17) (by rw [eα, abs_of_nonneg (by linarith)]; linarith)
      (by simp; linarith) (by rw [neg_mul, abs_neg, eα, abs_of_nonneg (by linarith)]; linarith)
    exact this
  · have := rbjStore_within (s := s.biquad) hk hs hv P (P.alpha.le e16) (Approx.zero.le e0) (P.alpha.neg.le e16) (by rw [abs_of_nonneg (by linarith)]; linarith)
      (by simp; linarith) (by rw [abs_neg, abs_of_nonneg (by linarith)]; linarith)
    exact this
  · have := rbjStore_within (s := s.biquad) hk hs hv P (Approx.one.le e0) (P.twice.le e31) (Approx.one.le e0) (by simp; linarith)
      (by rw [abs_le]; constructor <;> linarith) (by simp; linarith)
    exact this
  · have := rbjStore_within (s := s.biquad) hk hs hv P (P.minus.le e18) (P.twice.le e31) (P.plus.le e18) (by rw [abs_le]; constructor <;> linarith)
      (by rw [abs_le]; constructor <;> linarith) (by rw [abs_of_nonneg (by linarith)]; linarith)
    exact this

/-- Error of the outputs. -/
noncomputable def rbjBound (f : Fmt) (k sr fc q X : ℝ) : ℝ :=
  (36288 * (f.u * X + f.tiny) + 34 * coeffErr f k q * X) / rbjMargin sr fc q ^ 2

/-- **C83**, outputs: fed the same samples of magnitude at most `X`, the filter in floating point stays within `rbjBound` of
the filter with the same parameters in exact arithmetic, forever. -/
theorem C83_tracks {X : ℝ} (hX : 0 ≤ X)
    (hrange : 191808 * (X + f.tiny) ≤ rbjMargin sr.toReal fc.toReal q.toReal ^ 2 * 2 ^ f.emax) :
    (∀ (s : LowPass (Fl L)) (r : LowPass ℝ), Tracks (s.setCoefficients sr fc q)
      (r.setCoefficients sr.toReal fc.toReal q.toReal) X (rbjBound f k sr.toReal fc.toReal q.toReal X)) ∧
    (∀ (s : HighPass (Fl L)) (r : HighPass ℝ), Tracks (s.setCoefficients sr fc q)
      (r.setCoefficients sr.toReal fc.toReal q.toReal) X (rbjBound f k sr.toReal fc.toReal q.toReal X)) ∧
    (∀ (s : BandPass1 (Fl L)) (r : BandPass1 ℝ), Tracks (s.setCoefficients sr fc q)
      (r.setCoefficients sr.toReal fc.toReal q.toReal) X (rbjBound f k sr.toReal fc.toReal q.toReal X)) ∧
    (∀ (s : BandPass2 (Fl L)) (r : BandPass2 ℝ), Tracks (s.setCoefficients sr fc q)
      (r.setCoefficients sr.toReal fc.toReal q.toReal) X (rbjBound f k sr.toReal fc.toReal q.toReal X)) ∧
    (∀ (s : BandStop (Fl L)) (r : BandStop ℝ), Tracks (s.setCoefficients sr fc q)
      (r.setCoefficients sr.toReal fc.toReal q.toReal) X (rbjBound f k sr.toReal fc.toReal q.toReal X)) ∧
    (∀ (s : AllPass (Fl L)) (r : AllPass ℝ), Tracks (s.setCoefficients sr fc q)
      (r.setCoefficients sr.toReal fc.toReal q.toReal) X (rbjBound f k sr.toReal fc.toReal q.toReal X)) := by
  obtain ⟨w1, w2, w3, w4, w5, w6⟩ := C83_coefficients hL hf hk h
  have hm := rbj_poleMargin h.valid
  have hu := f.u_pos
  have hq : 0 < q.toReal := h.valid.2.2
  have hα := h.valid.alphaQ_pos
  have s0 := h.valid.sin_pos
  have s1 := Real.sin_le_one (angle sr.toReal fc.toReal)
  have c1 := abs_le.mp (Real.abs_cos_le_one (angle sr.toReal fc.toReal))
  have eα : q.toReal * alphaQ sr.toReal fc.toReal q.toReal = Real.sin (angle sr.toReal fc.toReal) / 2 := by
    unfold alphaQ; field_simp
  have key : ∀ {τ : Type} [Processor τ ℝ] {r : τ} {b : Biquad2 (Fl L)} {n0 n1 n2 : ℝ}, Implements r (n0 / (1 + alphaQ sr.toReal fc.toReal q.toReal))
      (n1 / (1 + alphaQ sr.toReal fc.toReal q.toReal)) (n2 / (1 + alphaQ sr.toReal fc.toReal q.toReal))
      (-2 * Real.cos (angle sr.toReal fc.toReal) / (1 + alphaQ sr.toReal fc.toReal q.toReal))
      ((1 - alphaQ sr.toReal fc.toReal q.toReal) / (1 + alphaQ sr.toReal fc.toReal q.toReal)) →
      |n0| + |n1| + |n2| ≤ 4 * (1 + alphaQ sr.toReal fc.toReal q.toReal) →
      CoeffsWithin b (n0 / (1 + alphaQ sr.toReal fc.toReal q.toReal)) (n1 / (1 + alphaQ sr.toReal fc.toReal q.toReal))
      (n2 / (1 + alphaQ sr.toReal fc.toReal q.toReal))
      (-2 * Real.cos (angle sr.toReal fc.toReal) / (1 + alphaQ sr.toReal fc.toReal q.toReal))
      ((1 - alphaQ sr.toReal fc.toReal q.toReal) / (1 + alphaQ sr.toReal fc.toReal q.toReal)) (coeffErr f k q.toReal) →
      Tracks b r X (rbjBound f k sr.toReal fc.toReal q.toReal X) := by
    intro τ _ r b n0 n1 n2 hr hn hc
    have ha : 0 < 1 + alphaQ sr.toReal fc.toReal q.toReal := by linarith
    refine (hc.tracks hm h.margin (S := 7) ?_ hX ?_ (by norm_num; exact hrange) hr).le (le_of_eq ?_)
    · simp only [abs_div, abs_of_pos ha]
      rw [← add_div, ← add_div, ← add_div, ← add_div, div_le_iff₀ ha]
      have e1 : |-2 * Real.cos (angle sr.toReal fc.toReal)| ≤ 2 := by rw [abs_le]; constructor <;> linarith
      have e2 : |1 - alphaQ sr.toReal fc.toReal q.toReal| ≤ 1 + alphaQ sr.toReal fc.toReal q.toReal := by
        rw [abs_le]; constructor <;> linarith
      linarith
    · have e1 := h.margin
      unfold coeffErr at e1
      have e2 : 72 * f.u ≤ rbjMargin sr.toReal fc.toReal q.toReal / 8 := by
        have hH : 0 < 1 / (2 * q.toReal) := by positivity
        have : 0 ≤ (5 * k + 86) * f.u * (1 / (2 * q.toReal)) := by positivity
        have : 0 ≤ k * f.u := by positivity
        nlinarith
      have e3 := mul_le_mul_of_nonneg_right e2 (show (0 : ℝ) ≤ 2 ^ f.p by positivity)
      rw [mul_assoc, f.u_mul] at e3
      linarith
    · unfold rbjBound; norm_num
  refine ⟨fun s r => ?_, fun s r => ?_, fun s r => ?_, fun s r => ?_, fun s r => ?_, fun s r => ?_⟩
  · refine (key (r.implements _ _ _) ?_ (w1 s r)).congr (fun _ _ _ => LowPass.responds_iff _) (fun _ _ _ => Iff.rfl)
    rw [abs_of_nonneg (by linarith), abs_of_nonneg (by linarith)]; linarith
  · refine (key (r.implements _ _ _) ?_ (w2 s r)).congr (fun _ _ _ => HighPass.responds_iff _) (fun _ _ _ => Iff.rfl)
    rw [abs_of_nonneg (by linarith), abs_of_nonpos (by linarith)]; linarith
  · refine (key (r.implements _ _ _) ?_ (w3 s r)).congr (fun _ _ _ => BandPass1.responds_iff _) (fun _ _ _ => Iff.rfl)
    rw [neg_mul, abs_neg, eα, abs_zero, abs_of_nonneg (by linarith)]; linarith
  · refine (key (r.implements _ _ _) ?_ (w4 s r)).congr (fun _ _ _ => BandPass2.responds_iff _) (fun _ _ _ => Iff.rfl)
    rw [abs_neg, abs_zero, abs_of_nonneg hα.le]; linarith
  · refine (key (r.implements _ _ _) ?_ (w5 s r)).congr (fun _ _ _ => BandStop.responds_iff _) (fun _ _ _ => Iff.rfl)
    have e1 : |-2 * Real.cos (angle sr.toReal fc.toReal)| ≤ 2 := by rw [abs_le]; constructor <;> linarith
    rw [abs_one]; linarith
  · refine (key (r.implements _ _ _) ?_ (w6 s r)).congr (fun _ _ _ => AllPass.responds_iff _) (fun _ _ _ => Iff.rfl)
    have e1 : |-2 * Real.cos (angle sr.toReal fc.toReal)| ≤ 2 := by rw [abs_le]; constructor <;> linarith
    have e2 : |1 - alphaQ sr.toReal fc.toReal q.toReal| ≤ 1 + alphaQ sr.toReal fc.toReal q.toReal := by
      rw [abs_le]; constructor <;> linarith
    rw [abs_of_nonneg (show 0 ≤ 1 + alphaQ sr.toReal fc.toReal q.toReal by linarith)]; linarith

end

/-! ## Ranges of parameters -/

theorem sin_angle_ge {sr fc r : ℝ} (hsr : 0 < sr) (hr : 0 < r) (h1 : r * sr ≤ fc) (h2 : fc ≤ (1 / 2 - r) * sr) :
    4 * r ≤ Real.sin (angle sr fc) := by
  have hπ := Real.pi_pos
  have e : angle sr fc = 2 * Real.pi * (fc / sr) := by unfold angle; ring
  have l1 : r ≤ fc / sr := by rw [le_div_iff₀ hsr]; exact h1
  have l2 : fc / sr ≤ 1 / 2 - r := by rw [div_le_iff₀ hsr]; exact h2
  rw [e]
  generalize fc / sr = x at l1 l2
  rcases le_total x (1 / 4) with hx | hx
  · have := Real.mul_le_sin (x := 2 * Real.pi * x) (by nlinarith) (by nlinarith)
    rw [show 2 / Real.pi * (2 * Real.pi * x) = 4 * x by field_simp; ring] at this
    linarith
  · have := Real.mul_le_sin (x := Real.pi - 2 * Real.pi * x) (by nlinarith) (by nlinarith)
    rw [Real.sin_pi_sub, show 2 / Real.pi * (Real.pi - 2 * Real.pi * x) = 2 - 4 * x by field_simp; ring] at this
    linarith

theorem rbjMargin_ge {sr fc q r Q : ℝ} (hsr : 0 < sr) (hr : 0 < r) (h1 : r * sr ≤ fc) (h2 : fc ≤ (1 / 2 - r) * sr)
    (hq : 1 / 2 ≤ q) (hQ : q ≤ Q) : (2 * r / (Q + 2 * r)) ^ 2 ≤ rbjMargin sr fc q := by
  have hs := sin_angle_ge hsr hr h1 h2
  have hq0 : 0 < q := by linarith
  have hQ0 : 0 < Q := by linarith
  unfold rbjMargin
  rw [min_eq_right (by rw [div_le_one (by positivity)]; linarith)]
  refine pow_le_pow_left₀ (by positivity) ?_ 2
  have e : Real.sin (angle sr fc) * (1 / (2 * q)) / (1 + alphaQ sr fc q) = Real.sin (angle sr fc) / (2 * q + Real.sin (angle sr fc)) := by
    unfold alphaQ
    have : 0 < 2 * q + Real.sin (angle sr fc) := by linarith
    have : 0 < 1 + Real.sin (angle sr fc) / (2 * q) := by
      have : 0 < Real.sin (angle sr fc) / (2 * q) := div_pos (by linarith) (by positivity)
      linarith
    field_simp
  rw [e, div_le_div_iff₀ (by positivity) (by linarith)]
  nlinarith

/-- Every stream of samples of magnitude at most `X` is answered by finite samples only. -/
def StaysFinite {σ : Type} [Processor σ (Fl L)] (s : σ) (X : ℝ) : Prop :=
  ∀ (b : Build) (x : ℕ → Fl L), (∀ n, (x n).Within X) → ∃ y, Responds b s x y ∧ ∀ n, (y n).Finite

theorem Tracks.finite {σ τ : Type} [Processor σ (Fl L)] [Processor τ ℝ] {s : σ} {r : τ} {X E : ℝ} (h : Tracks (L := L) s r X E) :
    StaysFinite s X := by
  intro b x hx
  obtain ⟨y, hy⟩ := h.1 b x
  obtain ⟨z, hz⟩ := h.2.1 b fun n => (x n).toReal
  exact ⟨y, hy, fun n => (h.2.2 b x y z hx hy hz n).1⟩

theorem resolved_of {r Q X : ℝ} (hu : 1536 * f.u ≤ (2 * r / (Q + 2 * r)) ^ 2) (hQf : Q ≤ 2 ^ f.p) (hsr : sr.Finite) (hfc : fc.Finite) (hq : q.Finite)
    (h1 : 1 ≤ sr.toReal) (h2 : 8 * sr.toReal ≤ 2 ^ f.emax) (hr : 0 < r) (h3 : r * sr.toReal ≤ fc.toReal)
    (h4 : fc.toReal ≤ (1 / 2 - r) * sr.toReal) (h5 : 1 / 2 ≤ q.toReal) (h6 : q.toReal ≤ Q)
    (hX : 191808 * (X + f.tiny) ≤ (2 * r / (Q + 2 * r)) ^ 4 * 2 ^ f.emax) : Resolved 2 sr fc q ∧
      191808 * (X + f.tiny) ≤ rbjMargin sr.toReal fc.toReal q.toReal ^ 2 * 2 ^ f.emax := by
  have hm := rbjMargin_ge (by linarith) hr h3 h4 h5 h6
  refine ⟨⟨⟨hsr, h1, h2⟩, hfc, ⟨hq, h6.trans hQf⟩, ⟨?_, ?_, by linarith⟩, ?_⟩, ?_⟩
  · nlinarith
  · nlinarith
  · refine le_trans ?_ hm
    unfold coeffErr
    have : 1 / (2 * q.toReal) ≤ 1 := by rw [div_le_one (by linarith)]; linarith
    have := mul_le_mul_of_nonneg_left this f.u_pos.le
    linarith
  · refine hX.trans (mul_le_mul_of_nonneg_right ?_ (by positivity))
    rw [show (2 * r / (Q + 2 * r)) ^ 4 = ((2 * r / (Q + 2 * r)) ^ 2) ^ 2 by ring]
    exact pow_le_pow_left₀ (by positivity) hm 2

/-- **C83** in f32: frequencies from 1/100 to 49/100 of the sample rate and `q` from 1/2 to 2 are safe. -/
theorem C83_f32 {L : Libm binary32} (hL : AccurateTrig L 2) {sr fc q : Fl L} (hsr : sr.Finite) (hfc : fc.Finite) (hq : q.Finite)
    (h1 : 1 ≤ sr.toReal) (h2 : sr.toReal ≤ 2 ^ 100) (h3 : sr.toReal / 100 ≤ fc.toReal) (h4 : fc.toReal ≤ 49 / 100 * sr.toReal)
    (h5 : 1 / 2 ≤ q.toReal) (h6 : q.toReal ≤ 2) :
    (∀ s : LowPass (Fl L), StaysFinite (s.setCoefficients sr fc q) (2 ^ 60)) ∧
    (∀ s : HighPass (Fl L), StaysFinite (s.setCoefficients sr fc q) (2 ^ 60)) ∧
    (∀ s : BandPass1 (Fl L), StaysFinite (s.setCoefficients sr fc q) (2 ^ 60)) ∧
    (∀ s : BandPass2 (Fl L), StaysFinite (s.setCoefficients sr fc q) (2 ^ 60)) ∧
    (∀ s : BandStop (Fl L), StaysFinite (s.setCoefficients sr fc q) (2 ^ 60)) ∧
    (∀ s : AllPass (Fl L), StaysFinite (s.setCoefficients sr fc q) (2 ^ 60)) := by
  obtain ⟨hR, hX⟩ := resolved_of (X := 2 ^ 60) (r := 1 / 100) (Q := 2) (by norm_num [Fmt.u, binary32]) (by norm_num [binary32]) hsr hfc hq h1
    (by norm_num [binary32]; linarith) (by norm_num) (by linarith) (by linarith) h5 h6 (by norm_num [Fmt.tiny, binary32])
  obtain ⟨t1, t2, t3, t4, t5, t6⟩ := C83_tracks hL binary32_roomy (by norm_num) hR (by positivity) hX
  exact ⟨fun s => (t1 s .new).finite, fun s => (t2 s .new).finite, fun s => (t3 s .new).finite, fun s => (t4 s .new).finite,
    fun s => (t5 s .new).finite, fun s => (t6 s .new).finite⟩

/-- **C83** in f64: frequencies from 1/16 to 7/16 of the sample rate, `q` from 1/2 to 1, samples in [-1, 1]. -/
theorem C83_f64 {L : Libm binary64} (hL : AccurateTrig L 2) {sr fc q : Fl L} (hsr : sr.Finite) (hfc : fc.Finite) (hq : q.Finite)
    (h1 : 1 ≤ sr.toReal) (h2 : sr.toReal ≤ 2 ^ 100) (h3 : sr.toReal / 16 ≤ fc.toReal) (h4 : fc.toReal ≤ 7 / 16 * sr.toReal)
    (h5 : 1 / 2 ≤ q.toReal) (h6 : q.toReal ≤ 1) :
    (∀ (s : LowPass (Fl L)) (r : LowPass ℝ),
      Tracks (s.setCoefficients sr fc q) (r.setCoefficients sr.toReal fc.toReal q.toReal) 1 (1 / 10 ^ 7)) ∧
    (∀ (s : HighPass (Fl L)) (r : HighPass ℝ),
      Tracks (s.setCoefficients sr fc q) (r.setCoefficients sr.toReal fc.toReal q.toReal) 1 (1 / 10 ^ 7)) ∧
    (∀ (s : BandPass1 (Fl L)) (r : BandPass1 ℝ),
      Tracks (s.setCoefficients sr fc q) (r.setCoefficients sr.toReal fc.toReal q.toReal) 1 (1 / 10 ^ 7)) ∧
    (∀ (s : BandPass2 (Fl L)) (r : BandPass2 ℝ),
      Tracks (s.setCoefficients sr fc q) (r.setCoefficients sr.toReal fc.toReal q.toReal) 1 (1 / 10 ^ 7)) ∧
    (∀ (s : BandStop (Fl L)) (r : BandStop ℝ),
      Tracks (s.setCoefficients sr fc q) (r.setCoefficients sr.toReal fc.toReal q.toReal) 1 (1 / 10 ^ 7)) ∧
    (∀ (s : AllPass (Fl L)) (r : AllPass ℝ),
      Tracks (s.setCoefficients sr fc q) (r.setCoefficients sr.toReal fc.toReal q.toReal) 1 (1 / 10 ^ 7)) := by
  have hbig : (2 : ℝ) ^ (103 : ℤ) ≤ 2 ^ binary64.emax := zpow_le_zpow_right₀ one_le_two (by decide)
  have ht : binary64.tiny ≤ binary64.u / 1000 := by
    have : binary64.tiny ≤ (2 : ℝ) ^ (-100 : ℤ) := by
      unfold Fmt.tiny
      have : (2 : ℝ) ^ binary64.emin ≤ 2 ^ (-100 : ℤ) := zpow_le_zpow_right₀ one_le_two (by decide)
      have : (0 : ℝ) < 2 ^ binary64.emin := by positivity
      linarith
    refine this.trans ?_
    rw [show binary64.u = 1 / 2 ^ 53 from rfl]
    norm_num
  have hu : binary64.u = 1 / 2 ^ 53 := rfl
  norm_num at hbig
  obtain ⟨hR, hX⟩ := resolved_of (X := 1) (r := 1 / 16) (Q := 1) (by rw [hu]; norm_num) (by norm_num [binary64]) hsr hfc hq h1
    (by norm_num at h2; linarith) (by norm_num) (by linarith) (by linarith) h5 h6 (by
      rw [hu] at ht; norm_num at ht ⊢; linarith)
  obtain ⟨t1, t2, t3, t4, t5, t6⟩ := C83_tracks hL binary64_roomy (by norm_num) hR zero_le_one hX
  have hb : rbjBound binary64 2 sr.toReal fc.toReal q.toReal 1 ≤ 1 / 10 ^ 7 := by
    have hm := rbjMargin_ge (sr := sr.toReal) (fc := fc.toReal) (q := q.toReal) (r := 1 / 16) (Q := 1) (show 0 < sr.toReal by linarith) (by norm_num) (by linarith) (by linarith) h5 h6
    have hm2 := pow_le_pow_left₀ (by positivity) hm 2
    have hq1 : 1 / (2 * q.toReal) ≤ 1 := by rw [div_le_one (by linarith)]; linarith
    unfold rbjBound coeffErr
    rw [div_le_iff₀ (lt_of_lt_of_le (by norm_num) hm2)]
    norm_num at hm2
    generalize 1 / (2 * q.toReal) = H at hq1 ⊢
    rw [hu] at ht ⊢
    norm_num at ht ⊢
    linarith
  exact ⟨fun s r => (t1 s r).le hb, fun s r => (t2 s r).le hb, fun s r => (t3 s r).le hb, fun s r => (t4 s r).le hb,
    fun s r => (t5 s r).le hb, fun s r => (t6 s r).le hb⟩

/-! ## The hypotheses are met -/

/-- Libraries that round correctly meet the assumption. -/
theorem AccurateTrig.of_rounded (hf : f.Roomy) (hc : ∀ x : Fl L, x.Finite → FloatOps.cos x = FP.ofReal f false (Real.cos x.toReal))
    (hs : ∀ x : Fl L, x.Finite → FloatOps.sin x = FP.ofReal f false (Real.sin x.toReal)) : AccurateTrig L 2 := by
  have hu := f.u_pos
  have hu1 : f.u ≤ 1 := by linarith [f.u_le]
  have he := hf.emax
  have he1 : 1 ≤ (2 : ℝ) ^ f.emax := by
    have : f.u * 2 ^ f.emax ≤ 1 * 2 ^ f.emax := mul_le_mul_of_nonneg_right hu1 (by positivity)
    linarith
  have ht : f.tiny ≤ f.u := hf.tiny.trans (by
    have : f.u ^ 2 ≤ 1 := pow_le_one₀ hu.le hu1
    nlinarith)
  have key : ∀ v : ℝ, |v| ≤ 1 → (FP.ofReal f false v).Finite ∧ |(FP.ofReal f false v).toReal - v| ≤ 2 * f.u := by
    intro v hv
    have := FP.ofReal_of_noOvf (f := f) (s := false) (x := v) (noOvf_of_le_emax (hv.trans he1))
    refine ⟨this.1, ?_⟩
    rw [this.2]
    have h := abs_rnd_sub_le_u f v
    nlinarith
  refine ⟨fun x hx _ => ?_, fun x hx _ => ?_⟩
  · rw [hc x hx]; exact key _ (Real.abs_cos_le_one x.toReal)
  · rw [hs x hx]; exact key _ (Real.abs_sin_le_one x.toReal)

/-- The conditions of `C83_f32`: 48 kHz, 1 kHz, `q = 1`, with a library that rounds correctly. -/
example : ∃ (L : Libm binary32) (sr fc q : Fl L), AccurateTrig L 2 ∧ sr.Finite ∧ fc.Finite ∧ q.Finite ∧ sr.toReal = 48000 ∧
    fc.toReal = 1000 ∧ q.toReal = 1 ∧ (48000 : ℝ) / 100 ≤ 1000 ∧ (1000 : ℝ) ≤ 49 / 100 * 48000 := by
  let L : Libm binary32 :=
    { exp := id, cos := fun x => FP.ofReal binary32 false (Real.cos x.toReal),
      sin := fun x => FP.ofReal binary32 false (Real.sin x.toReal), log10 := id, powf := fun x _ => x }
  obtain ⟨a, ha⟩ := exists_of_isRep L (v := 48000) (by exact_mod_cast isRep_nat (f := binary32) (n := 48000) (by norm_num [binary32]))
    (by norm_num [Fmt.lim, binary32])
  obtain ⟨b, hb⟩ := exists_of_isRep L (v := 1000) (by exact_mod_cast isRep_nat (f := binary32) (n := 1000) (by norm_num [binary32]))
    (by norm_num [Fmt.lim, binary32])
  exact ⟨L, a, b, one, .of_rounded binary32_roomy (fun _ _ => rfl) (fun _ _ => rfl), ha.1, hb.1, one_finite, ha.2, hb.2, one_toReal,
    by norm_num, by norm_num⟩

/-- The conditions of `C83_f64`: 48 kHz, 12 kHz, `q = 1`. -/
example : ∃ (L : Libm binary64) (sr fc q : Fl L), AccurateTrig L 2 ∧ sr.Finite ∧ fc.Finite ∧ q.Finite ∧ sr.toReal = 48000 ∧
    fc.toReal = 12000 ∧ q.toReal = 1 ∧ (48000 : ℝ) / 16 ≤ 12000 ∧ (12000 : ℝ) ≤ 7 / 16 * 48000 := by
  let L : Libm binary64 :=
    { exp := id, cos := fun x => FP.ofReal binary64 false (Real.cos x.toReal),
      sin := fun x => FP.ofReal binary64 false (Real.sin x.toReal), log10 := id, powf := fun x _ => x }
  have hl : ∀ v : ℝ, |v| ≤ 2 ^ 100 → |v| < binary64.lim := by
    intro v h
    have : (2 : ℝ) ^ (101 : ℤ) ≤ binary64.lim := zpow_le_zpow_right₀ one_le_two (by decide)
    norm_num at h this ⊢
    linarith
  obtain ⟨a, ha⟩ := exists_of_isRep L (v := 48000) (by exact_mod_cast isRep_nat (f := binary64) (n := 48000) (by norm_num [binary64]))
    (hl _ (by norm_num))
  obtain ⟨b, hb⟩ := exists_of_isRep L (v := 12000) (by exact_mod_cast isRep_nat (f := binary64) (n := 12000) (by norm_num [binary64]))
    (hl _ (by norm_num))
  exact ⟨L, a, b, one, .of_rounded binary64_roomy (fun _ _ => rfl) (fun _ _ => rfl), ha.1, hb.1, one_finite, ha.2, hb.2, one_toReal,
    by norm_num, by norm_num⟩

end Rasp
