import Verif.Lemmas.KernelErr
import Verif.Props.RbjFloat
import Verif.Props.GainFloat
import Verif.Props.PeakGain

/-!
# C134: the rbj filters at low frequencies in floating point

As C83 and C84, with bounds that grow with the square of the distance of the frequency from the ends of the range rather than with its
fourth power.
-/

namespace Rasp
open FloatOps Fl
variable {f : Fmt} {L : Libm f} {k : ℝ} {sr fc q db slope : Fl L}

/-- Bound of the sum of the magnitudes of the impulse response of the poles. -/
noncomputable def poleSum (sr fc q : ℝ) : ℝ := 3 * q * (1 + alphaQ sr fc q) ^ 2 / Real.sin (angle sr fc) ^ 2

/-- Error of the outputs. -/
noncomputable def fineBound (f : Fmt) (k sr fc q X : ℝ) : ℝ := poleSum sr fc q * (50 * k + 1004) * (24 * q + 25) * (f.u * X + f.tiny)

theorem PeakGainWithin.gainAtMost {τ : Type} [Processor τ ℝ] {r : τ} {b : Build} {lo hi G : ℝ} (h : PeakGainWithin b r lo hi) (hc : IsConvolution b r)
    (hG : hi ≤ G) : GainAtMost b r G := by
  obtain ⟨G', h1, -, h2⟩ := h
  exact (C112_gain_filter hc h1).le (h2.trans hG)

section
variable (hL : AccurateTrig L k) (hf : f.Roomy) (hk : 0 ≤ k) (h : Resolved k sr fc q)
include hL hf hk h

/-- **C134**. Fed the same samples of magnitude at most `X`, the filter in floating point stays within `fineBound` of the filter with
the same parameters in exact arithmetic, forever. -/
theorem C134_tracks {X : ℝ} (hX : 0 ≤ X) (hq : 1 / 2 ≤ q.toReal) (hprec : 2 * (poleSum sr.toReal fc.toReal q.toReal * (50 * k + 1004)) ≤ 2 ^ f.p)
    (hrange : (50 * k + 1004) * ((24 * q.toReal + 23 + 2 ^ f.p) * (X + f.tiny)) ≤ 2 ^ f.emax) :
    (∀ (s : LowPass (Fl L)) (r : LowPass ℝ), Tracks (s.setCoefficients sr fc q)
      (r.setCoefficients sr.toReal fc.toReal q.toReal) X (fineBound f k sr.toReal fc.toReal q.toReal X)) ∧
    (∀ (s : HighPass (Fl L)) (r : HighPass ℝ), Tracks (s.setCoefficients sr fc q)
      (r.setCoefficients sr.toReal fc.toReal q.toReal) X (fineBound f k sr.toReal fc.toReal q.toReal X)) ∧
    (∀ (s : BandPass1 (Fl L)) (r : BandPass1 ℝ), Tracks (s.setCoefficients sr fc q)
      (r.setCoefficients sr.toReal fc.toReal q.toReal) X (fineBound f k sr.toReal fc.toReal q.toReal X)) ∧
    (∀ (s : BandPass2 (Fl L)) (r : BandPass2 ℝ), Tracks (s.setCoefficients sr fc q)
      (r.setCoefficients sr.toReal fc.toReal q.toReal) X (fineBound f k sr.toReal fc.toReal q.toReal X)) ∧
    (∀ (s : BandStop (Fl L)) (r : BandStop ℝ), Tracks (s.setCoefficients sr fc q)
      (r.setCoefficients sr.toReal fc.toReal q.toReal) X (fineBound f k sr.toReal fc.toReal q.toReal X)) ∧
    (∀ (s : AllPass (Fl L)) (r : AllPass ℝ), Tracks (s.setCoefficients sr fc q)
      (r.setCoefficients sr.toReal fc.toReal q.toReal) X (fineBound f k sr.toReal fc.toReal q.toReal X)) := by
  obtain ⟨w1, w2, w3, w4, w5, w6⟩ := C83_coefficients hL hf hk h
  have hsc := h.scale hf hk
  have hu := f.u_pos
  have ht := f.tiny_pos
  have hα := h.valid.alphaQ_pos
  have s0 := h.valid.sin_pos
  have s1 := Real.sin_le_one (angle sr.toReal fc.toReal)
  have c1 := abs_le.mp (Real.abs_cos_le_one (angle sr.toReal fc.toReal))
  have eα : q.toReal * alphaQ sr.toReal fc.toReal q.toReal = Real.sin (angle sr.toReal fc.toReal) / 2 := by
    unfold alphaQ; field_simp
  obtain ⟨e, ke⟩ := kernel_q h.valid hq
  have G := fun b => C133_filters b h.valid hq
  have key : ∀ {τ : Type} [Processor τ ℝ] {r : τ} {b : Biquad2 (Fl L)} {n0 n1 n2 : ℝ}, Implements r (n0 / (1 + alphaQ sr.toReal fc.toReal q.toReal))
      (n1 / (1 + alphaQ sr.toReal fc.toReal q.toReal)) (n2 / (1 + alphaQ sr.toReal fc.toReal q.toReal))
      (-2 * Real.cos (angle sr.toReal fc.toReal) / (1 + alphaQ sr.toReal fc.toReal q.toReal))
      ((1 - alphaQ sr.toReal fc.toReal q.toReal) / (1 + alphaQ sr.toReal fc.toReal q.toReal)) →
      |n0| + |n1| + |n2| ≤ 4 * (1 + alphaQ sr.toReal fc.toReal q.toReal) → (∀ b, GainAtMost b r (12 * q.toReal + 11)) →
      CoeffsWithin b (n0 / (1 + alphaQ sr.toReal fc.toReal q.toReal)) (n1 / (1 + alphaQ sr.toReal fc.toReal q.toReal))
      (n2 / (1 + alphaQ sr.toReal fc.toReal q.toReal))
      (-2 * Real.cos (angle sr.toReal fc.toReal) / (1 + alphaQ sr.toReal fc.toReal q.toReal))
      ((1 - alphaQ sr.toReal fc.toReal q.toReal) / (1 + alphaQ sr.toReal fc.toReal q.toReal)) (coeffErr f k q.toReal) →
      Tracks b r X (fineBound f k sr.toReal fc.toReal q.toReal X) := by
    intro τ _ r b n0 n1 n2 hr hn hg hc
    have ha : 0 < 1 + alphaQ sr.toReal fc.toReal q.toReal := by linarith
    have hH : 1 / (2 * q.toReal) ≤ 1 := by rw [div_le_one (by linarith)]; linarith
    refine (hc.tracks_sum (S := 7) (K := poleSum sr.toReal fc.toReal q.toReal) (G := 12 * q.toReal + 11) (κ := 50 * k + 1004) ?_ ?_ hX ke.solves ke.sum_le
      hr hg ?_ hprec ?_).le (le_of_eq (by unfold fineBound; ring))
    · have := hsc.e
      unfold coeffErr
      linarith
    · simp only [abs_div, abs_of_pos ha]
      rw [← add_div, ← add_div, ← add_div, ← add_div, div_le_iff₀ ha]
      have e1 : |-2 * Real.cos (angle sr.toReal fc.toReal)| ≤ 2 := by rw [abs_le]; constructor <;> linarith
      have e2 : |1 - alphaQ sr.toReal fc.toReal q.toReal| ≤ 1 + alphaQ sr.toReal fc.toReal q.toReal := by
        rw [abs_le]; constructor <;> linarith
      linarith
    · unfold coeffErr
      have := mul_le_mul_of_nonneg_left hH (show 0 ≤ (5 * k + 86) * f.u by positivity)
      linarith
    · refine le_trans (mul_le_mul_of_nonneg_left (mul_le_mul_of_nonneg_right ?_ (by positivity)) (by linarith)) hrange
      linarith
  refine ⟨fun s r => ?_, fun s r => ?_, fun s r => ?_, fun s r => ?_, fun s r => ?_, fun s r => ?_⟩
  · refine (key (r.implements _ _ _) ?_ (fun b => ((G b).1 r).gainAtMost ((r.implements _ _ _).isConvolution b) (by linarith)) (w1 s r)).congr
      (fun _ _ _ => LowPass.responds_iff _) (fun _ _ _ => Iff.rfl)
    rw [abs_of_nonneg (by linarith), abs_of_nonneg (by linarith)]; linarith
  · refine (key (r.implements _ _ _) ?_ (fun b => ((G b).2.1 r).gainAtMost ((r.implements _ _ _).isConvolution b) (by linarith)) (w2 s r)).congr
      (fun _ _ _ => HighPass.responds_iff _) (fun _ _ _ => Iff.rfl)
    rw [abs_of_nonneg (by linarith), abs_of_nonpos (by linarith)]; linarith
  · refine (key (r.implements _ _ _) ?_ (fun b => ((G b).2.2.1 r).gainAtMost ((r.implements _ _ _).isConvolution b) (by linarith)) (w3 s r)).congr
      (fun _ _ _ => BandPass1.responds_iff _) (fun _ _ _ => Iff.rfl)
    rw [neg_mul, _root_.abs_neg, eα, _root_.abs_zero, abs_of_nonneg (by linarith)]; linarith
  · refine (key (r.implements _ _ _) ?_ (fun b => ((G b).2.2.2.1 r).gainAtMost ((r.implements _ _ _).isConvolution b) (by linarith)) (w4 s r)).congr
      (fun _ _ _ => BandPass2.responds_iff _) (fun _ _ _ => Iff.rfl)
    rw [_root_.abs_neg, _root_.abs_zero, abs_of_nonneg hα.le]; linarith
  · refine (key (r.implements _ _ _) ?_ (fun b => ((G b).2.2.2.2.1 r).gainAtMost ((r.implements _ _ _).isConvolution b) (by linarith)) (w5 s r)).congr
      (fun _ _ _ => BandStop.responds_iff _) (fun _ _ _ => Iff.rfl)
    have e1 : |-2 * Real.cos (angle sr.toReal fc.toReal)| ≤ 2 := by rw [abs_le]; constructor <;> linarith
    rw [abs_one]; linarith
  · refine (key (r.implements _ _ _) ?_ (fun b => ((G b).2.2.2.2.2 r).gainAtMost ((r.implements _ _ _).isConvolution b) (by linarith)) (w6 s r)).congr
      (fun _ _ _ => AllPass.responds_iff _) (fun _ _ _ => Iff.rfl)
    have e1 : |-2 * Real.cos (angle sr.toReal fc.toReal)| ≤ 2 := by rw [abs_le]; constructor <;> linarith
    have e2 : |1 - alphaQ sr.toReal fc.toReal q.toReal| ≤ 1 + alphaQ sr.toReal fc.toReal q.toReal := by
      rw [abs_le]; constructor <;> linarith
    rw [abs_of_nonneg (show 0 ≤ 1 + alphaQ sr.toReal fc.toReal q.toReal by linarith)]; linarith

end

/-- **C134** in f64: from a millionth of the sample rate up to as much below half of it, `q` from 1/2 to 1. -/
theorem C134_f64 {L : Libm binary64} (hL : AccurateTrig L 2) {sr fc q : Fl L} (hsr : sr.Finite) (hfc : fc.Finite) (hq : q.Finite)
    (h1 : 1 ≤ sr.toReal) (h2 : sr.toReal ≤ 2 ^ 100) {r : ℝ} (hr : 1 / 10 ^ 6 ≤ r) (h3 : r * sr.toReal ≤ fc.toReal)
    (h4 : fc.toReal ≤ (1 / 2 - r) * sr.toReal) (h5 : 1 / 2 ≤ q.toReal) (h6 : q.toReal ≤ 1) {X : ℝ} (hX : 0 ≤ X) (hX1 : X ≤ 2 ^ 100) :
    (∀ (s : LowPass (Fl L)) (t : LowPass ℝ),
      Tracks (s.setCoefficients sr fc q) (t.setCoefficients sr.toReal fc.toReal q.toReal) X (5 / (10 ^ 12 * r ^ 2) * (X + 1 / 2 ^ 200))) ∧
    (∀ (s : HighPass (Fl L)) (t : HighPass ℝ),
      Tracks (s.setCoefficients sr fc q) (t.setCoefficients sr.toReal fc.toReal q.toReal) X (5 / (10 ^ 12 * r ^ 2) * (X + 1 / 2 ^ 200))) ∧
    (∀ (s : BandPass1 (Fl L)) (t : BandPass1 ℝ),
      Tracks (s.setCoefficients sr fc q) (t.setCoefficients sr.toReal fc.toReal q.toReal) X (5 / (10 ^ 12 * r ^ 2) * (X + 1 / 2 ^ 200))) ∧
    (∀ (s : BandPass2 (Fl L)) (t : BandPass2 ℝ),
      Tracks (s.setCoefficients sr fc q) (t.setCoefficients sr.toReal fc.toReal q.toReal) X (5 / (10 ^ 12 * r ^ 2) * (X + 1 / 2 ^ 200))) ∧
    (∀ (s : BandStop (Fl L)) (t : BandStop ℝ),
      Tracks (s.setCoefficients sr fc q) (t.setCoefficients sr.toReal fc.toReal q.toReal) X (5 / (10 ^ 12 * r ^ 2) * (X + 1 / 2 ^ 200))) ∧
    (∀ (s : AllPass (Fl L)) (t : AllPass ℝ),
      Tracks (s.setCoefficients sr fc q) (t.setCoefficients sr.toReal fc.toReal q.toReal) X (5 / (10 ^ 12 * r ^ 2) * (X + 1 / 2 ^ 200))) := by
  have hbig : (2 : ℝ) ^ (250 : ℤ) ≤ 2 ^ binary64.emax := zpow_le_zpow_right₀ one_le_two (by decide)
  have hp : (2 : ℝ) ^ binary64.p = 2 ^ 53 := rfl
  have ht : binary64.tiny ≤ 1 / 2 ^ 253 := by
    have : binary64.tiny ≤ (2 : ℝ) ^ (-253 : ℤ) := by
      unfold Fmt.tiny
      have : (2 : ℝ) ^ binary64.emin ≤ 2 ^ (-253 : ℤ) := zpow_le_zpow_right₀ one_le_two (by decide)
      have : (0 : ℝ) < 2 ^ binary64.emin := by positivity
      linarith
    refine this.trans (le_of_eq ?_)
    norm_num
  norm_num at hbig
  have ht0 := binary64.tiny_pos
  have hu : binary64.u = 1 / 2 ^ 53 := rfl
  have hr0 : 0 < r := lt_of_lt_of_le (by norm_num) hr
  have hsr0 : 0 ≤ sr.toReal := by linarith
  have ht1 : binary64.tiny ≤ 1 := ht.trans (by norm_num)
  obtain ⟨hR, -⟩ := resolved_of (X := X) (r := 1 / 10 ^ 6) (Q := 1) (by rw [hu]; norm_num) (by norm_num [binary64]) hsr hfc hq h1
    (by norm_num at h2; linarith) (by norm_num) ((mul_le_mul_of_nonneg_right hr hsr0).trans h3) (h4.trans (mul_le_mul_of_nonneg_right (by linarith) hsr0)) h5 h6
    (by norm_num at hX1 ⊢; linarith)
  have hs := sin_angle_ge (by linarith) hr0 h3 h4
  have hK : poleSum sr.toReal fc.toReal q.toReal ≤ 3 / 4 / r ^ 2 := by
    unfold poleSum
    have hα0 := hR.valid.alphaQ_pos
    have hα : alphaQ sr.toReal fc.toReal q.toReal ≤ 1 := by
      unfold alphaQ
      rw [div_le_one (by linarith)]
      linarith [Real.sin_le_one (angle sr.toReal fc.toReal)]
    rw [div_le_div_iff₀ (by have := hR.valid.sin_pos; positivity) (by positivity)]
    have e1 : 3 * q.toReal * (1 + alphaQ sr.toReal fc.toReal q.toReal) ^ 2 ≤ 3 * 1 * (1 + 1) ^ 2 :=
      mul_le_mul (by linarith) (pow_le_pow_left₀ (by linarith) (by linarith) 2) (by positivity) (by norm_num)
    have e2 := pow_le_pow_left₀ (by positivity) hs 2
    have := mul_le_mul_of_nonneg_right e1 (sq_nonneg r)
    linarith
  have hr2 : 1 / r ^ 2 ≤ 10 ^ 12 := by
    rw [div_le_iff₀ (by positivity)]
    have := pow_le_pow_left₀ (by norm_num) hr 2
    norm_num at this ⊢
    linarith
  have hK0 : 0 ≤ poleSum sr.toReal fc.toReal q.toReal := by
    unfold poleSum; positivity
  obtain ⟨t1, t2, t3, t4, t5, t6⟩ := C134_tracks hL binary64_roomy (by norm_num) hR hX h5 (by
    rw [hp, show (3 : ℝ) / 4 / r ^ 2 = 3 / 4 * (1 / r ^ 2) by field_simp] at *; norm_num at *; linarith) (by
    rw [hp]
    refine le_trans (mul_le_mul_of_nonneg_left (mul_le_mul (show 24 * q.toReal + 23 + 2 ^ 53 ≤ 47 + 2 ^ 53 by linarith)
      (show X + binary64.tiny ≤ 2 ^ 100 + 1 by linarith) (by linarith) (by norm_num)) (by norm_num)) ?_
    norm_num
    linarith)
  have hb : fineBound binary64 2 sr.toReal fc.toReal q.toReal X ≤ 5 / (10 ^ 12 * r ^ 2) * (X + 1 / 2 ^ 200) := by
    unfold fineBound
    have e1 : poleSum sr.toReal fc.toReal q.toReal * (50 * 2 + 1004) * (24 * q.toReal + 25) ≤ 3 / 4 / r ^ 2 * (50 * 2 + 1004) * 49 :=
      mul_le_mul (by linarith) (by linarith) (by linarith) (by positivity)
    have e2 : binary64.u * X + binary64.tiny ≤ 1 / 2 ^ 53 * (X + 1 / 2 ^ 200) := by rw [hu]; norm_num at ht ⊢; linarith
    refine (mul_le_mul e1 e2 (add_nonneg (mul_nonneg binary64.u_pos.le hX) ht0.le) (by positivity)).trans ?_
    rw [← mul_assoc]
    refine mul_le_mul_of_nonneg_right ?_ (by positivity)
    rw [show 5 / (10 ^ 12 * r ^ 2) = 5 / 10 ^ 12 * (1 / r ^ 2) by field_simp, show (3 : ℝ) / 4 / r ^ 2 = 3 / 4 * (1 / r ^ 2) by field_simp]
    norm_num
    have : 0 ≤ (r ^ 2)⁻¹ := by positivity
    linarith
  exact ⟨fun s r => (t1 s r).le hb, fun s r => (t2 s r).le hb, fun s r => (t3 s r).le hb, fun s r => (t4 s r).le hb,
    fun s r => (t5 s r).le hb, fun s r => (t6 s r).le hb⟩

/-! ## Peak and shelves -/

/-- Factor of the error of one step for filters with a gain. -/
noncomputable def gainCond (k G R : ℝ) : ℝ := 3300 * (k + 1) * (G ^ 4 * (1 + R)) + 144 * G ^ 2

variable {G : ℝ}

theorem gain_tracks_sum {b : Biquad2 (Fl L)} {b0 b1 b2 a1 a2 R X K Γ : ℝ} {e : ℕ → ℝ} (hc : CoeffsWithin b b0 b1 b2 a1 a2 (gainErr f k G R)) (hG : 1 ≤ G)
    (hE : 5 * gainErr f k G R ≤ 1) (hS : |b0| + |b1| + |b2| + |a1| + |a2| ≤ 7 * G ^ 2) (hX : 0 ≤ X)
    (he : SolvesDiff 1 0 0 a1 a2 unitImpulse e) (hK : SumBelow e K) {τ : Type} [Processor τ ℝ] {r : τ} (hr : Implements r b0 b1 b2 a1 a2)
    (hg : ∀ b, GainAtMost b r Γ) (hκ : 0 ≤ gainCond k G R) (hprec : 2 * (K * gainCond k G R) ≤ 2 ^ f.p)
    (hrange : gainCond k G R * ((2 * Γ + 1 + 2 ^ f.p) * (X + f.tiny)) ≤ 2 ^ f.emax) :
    Tracks b r X (K * gainCond k G R * (2 * Γ + 3) * (f.u * X + f.tiny)) := by
  have hu := f.u_pos
  have ht := f.tiny_pos
  have hG2 : 1 ≤ G ^ 2 := one_le_pow₀ hG
  refine hc.tracks_sum hE hS hX he hK hr hg ?_ hprec ?_
  · unfold gainErr gainCond
    have := mul_le_mul_of_nonneg_left hG2 hu.le
    linarith
  · refine le_trans (mul_le_mul_of_nonneg_left (mul_le_mul_of_nonneg_right ?_ (by positivity)) hκ) hrange
    linarith

section
variable (hL : AccurateTrig L k) (hP : AccuratePow L k) (hf : f.Roomy) (hp : 7 ≤ f.p) (hk : 0 ≤ k)
include hL hP hf hp hk

/-- **C134**, Peak. -/
theorem C134_peak {X : ℝ} (h : PeakResolved k G sr fc db q) (hX : 0 ≤ X) (hq : 1 / 2 ≤ q.toReal * gainA db.toReal)
    (hprec : 2 * (12 * q.toReal * G / Real.sin (angle sr.toReal fc.toReal) ^ 2 * gainCond k G (1 / (2 * q.toReal))) ≤ 2 ^ f.p)
    (hrange : gainCond k G (1 / (2 * q.toReal)) * ((18 * G ^ 2 + 1 + 2 ^ f.p) * (X + f.tiny)) ≤ 2 ^ f.emax) (s : Peak (Fl L)) (r : Peak ℝ) :
    Tracks (s.setCoefficients sr fc db q) (r.setCoefficients sr.toReal fc.toReal db.toReal q.toReal) X
      (12 * q.toReal * G / Real.sin (angle sr.toReal fc.toReal) ^ 2 * gainCond k G (1 / (2 * q.toReal)) * (18 * G ^ 2 + 3) * (f.u * X + f.tiny)) := by
  have hA := gainA_pos db.toReal
  have hq0 : 0 < q.toReal := h.valid.2.2
  have hG := h.gain.one_le
  have hG2 : 1 ≤ G ^ 2 := one_le_pow₀ hG
  have hu := f.u_pos
  have hα := h.valid.alphaQ_pos
  have eα : alphaQ sr.toReal fc.toReal (q.toReal * gainA db.toReal) = alphaQ sr.toReal fc.toReal q.toReal / gainA db.toReal := by
    unfold alphaQ; field_simp
  have hm := rbj_poleMargin h.valid'
  have hAG := pow_le_pow_left₀ hA.le h.gain.le 2
  obtain ⟨e, ke⟩ := kernel_q h.valid' hq
  have hsum : SumBelow e (12 * q.toReal * G / Real.sin (angle sr.toReal fc.toReal) ^ 2) := by
    refine ke.sum_le.mono (div_le_div_of_nonneg_right ?_ (sq_nonneg _))
    have h1 := ke.alpha_le.trans ke.s_le
    have h2 : (1 + alphaQ sr.toReal fc.toReal (q.toReal * gainA db.toReal)) ^ 2 ≤ (1 + 1) ^ 2 :=
      pow_le_pow_left₀ (by linarith [ke.alpha_pos]) (by linarith) 2
    have h3 : q.toReal * gainA db.toReal ≤ q.toReal * G := mul_le_mul_of_nonneg_left h.gain.le hq0.le
    have := mul_le_mul (show 3 * (q.toReal * gainA db.toReal) ≤ 3 * (q.toReal * G) by linarith) h2 (sq_nonneg _) (by positivity)
    linarith
  have hs := ke.solves
  rw [eα] at hs
  have h8 := h.margin
  have := hm.le_one
  have hE0 : 0 ≤ gainErr f k G (1 / (2 * q.toReal)) := by unfold gainErr; positivity
  have hg : ∀ b, GainAtMost b (r.setCoefficients sr.toReal fc.toReal db.toReal q.toReal) (9 * G ^ 2) := fun b =>
    (C133_peak b h.valid hq r).gainAtMost ((r.implements _ _ _ _).isConvolution b) (by
      rw [← gainA_sq]
      have := sq_nonneg (gainA db.toReal)
      rcases abs_cases (gainA db.toReal ^ 2 - 1) with ⟨h, _⟩ | ⟨h, _⟩ <;> rw [h] <;> linarith)
  refine ((gain_tracks_sum (h.within hL hP hf hp hk s) hG (by linarith) ?_ hX hs hsum (r.implements _ _ _ _) hg
    (by unfold gainCond; positivity) hprec ?_).congr (fun _ _ _ => Peak.responds_iff _) (fun _ _ _ => Iff.rfl)).le (le_of_eq (by ring))
  · have hp' : 0 < alphaQ sr.toReal fc.toReal q.toReal / gainA db.toReal := by positivity
    have ha : 0 < 1 + alphaQ sr.toReal fc.toReal q.toReal / gainA db.toReal := by linarith
    have AA : alphaQ sr.toReal fc.toReal q.toReal * gainA db.toReal ≤ G ^ 2 * (alphaQ sr.toReal fc.toReal q.toReal / gainA db.toReal) := by
      rw [mul_div_assoc', le_div_iff₀ hA]
      nlinarith
    have hpA : 0 < alphaQ sr.toReal fc.toReal q.toReal * gainA db.toReal := by positivity
    have c1 := abs_le.mp (Real.abs_cos_le_one (angle sr.toReal fc.toReal))
    have hpG : alphaQ sr.toReal fc.toReal q.toReal / gainA db.toReal ≤ G ^ 2 * (alphaQ sr.toReal fc.toReal q.toReal / gainA db.toReal) :=
      le_mul_of_one_le_left hp'.le hG2
    simp only [abs_div, abs_of_pos ha]
    rw [← add_div, ← add_div, ← add_div, ← add_div, div_le_iff₀ ha]
    have e1 : |-2 * Real.cos (angle sr.toReal fc.toReal)| ≤ 2 := by rw [abs_le]; constructor <;> linarith
    have e2 : |1 - alphaQ sr.toReal fc.toReal q.toReal / gainA db.toReal| ≤ 1 + alphaQ sr.toReal fc.toReal q.toReal / gainA db.toReal := by
      rw [abs_le]; constructor <;> linarith
    have e3 : |1 - alphaQ sr.toReal fc.toReal q.toReal * gainA db.toReal| ≤ 1 + alphaQ sr.toReal fc.toReal q.toReal * gainA db.toReal := by
      rw [abs_le]; constructor <;> linarith
    rw [abs_of_pos (show 0 < 1 + alphaQ sr.toReal fc.toReal q.toReal * gainA db.toReal by linarith)]
    linarith
  · refine le_trans (le_of_eq ?_) hrange
    ring

omit hL hP hf hp hk in
theorem shelf_sum {c α Q A N t : ℝ} {e : ℕ → ℝ} (ke : Kernel c (2 * √A * t / N) α Q e) (hQ : Q ≤ 3 / 4) (hA : 0 < A) (hA1 : A ≤ G) (hA2 : 1 ≤ A * G)
    (ht : 0 < t) (hN0 : 0 < N) (hN : N ≤ A + 1 + |A - 1|) : SumBelow e (9 * G / t ^ 2) := by
  refine ke.sum_le.mono ?_
  have h1 := ke.alpha_le.trans ke.s_le
  have h2 : (1 + α) ^ 2 ≤ (1 + 1) ^ 2 := pow_le_pow_left₀ (by linarith [ke.alpha_pos]) (by linarith) 2
  have h3 := mul_le_mul (show 3 * Q ≤ 3 * (3 / 4) by linarith) h2 (sq_nonneg _) (by norm_num)
  refine (div_le_div_of_nonneg_right h3 (sq_nonneg _)).trans ?_
  rw [div_pow, mul_pow, mul_pow, Real.sq_sqrt hA.le]
  have h4 : N ^ 2 ≤ 4 * A * G := by
    rcases abs_cases (A - 1) with ⟨h, _⟩ | ⟨h, _⟩ <;> rw [h] at hN
    · have := pow_le_pow_left₀ hN0.le hN 2
      nlinarith
    · have := pow_le_pow_left₀ hN0.le hN 2
      nlinarith
  rw [div_le_div_iff₀ (by positivity) (by positivity)]
  field_simp
  have := mul_le_mul_of_nonneg_right h4 (sq_nonneg t)
  linarith

/-- **C134**, shelves. -/
theorem C134_shelves {X : ℝ} (h : ShelfResolved k G sr fc db slope) (hX : 0 ≤ X)
    (hS : (gainA db.toReal + 1 / gainA db.toReal) * (1 / slope.toReal - 1) ≤ 2)
    (hprec : 2 * (9 * G / Real.sin (angle sr.toReal fc.toReal) ^ 2 * gainCond k G (slopeR (gainA db.toReal) slope.toReal)) ≤ 2 ^ f.p)
    (hrange : gainCond k G (slopeR (gainA db.toReal) slope.toReal) * ((88 * G ^ 2 + 1 + 2 ^ f.p) * (X + f.tiny)) ≤ 2 ^ f.emax) :
    (∀ (s : LowShelf (Fl L)) (r : LowShelf ℝ), Tracks (s.setCoefficients sr fc db slope)
      (r.setCoefficients sr.toReal fc.toReal db.toReal slope.toReal) X
      (9 * G / Real.sin (angle sr.toReal fc.toReal) ^ 2 * gainCond k G (slopeR (gainA db.toReal) slope.toReal) * (88 * G ^ 2 + 3) * (f.u * X + f.tiny))) ∧
    (∀ (s : HighShelf (Fl L)) (r : HighShelf ℝ), Tracks (s.setCoefficients sr fc db slope)
      (r.setCoefficients sr.toReal fc.toReal db.toReal slope.toReal) X
      (9 * G / Real.sin (angle sr.toReal fc.toReal) ^ 2 * gainCond k G (slopeR (gainA db.toReal) slope.toReal) * (88 * G ^ 2 + 3) * (f.u * X + f.tiny))) := by
  obtain ⟨w1, w2⟩ := h.within hL hP hf hp hk
  have hv := h.valid
  have hA := gainA_pos db.toReal
  have hG := h.gain.one_le
  have hG2 : 1 ≤ G ^ 2 := one_le_pow₀ hG
  have hu := f.u_pos
  have hR := one_le_slopeR hA hv.2.2.1 hv.2.2.2
  obtain ⟨m1, m2⟩ := shelf_poleMargins hA hv
  have hx := Real.abs_cos_le_one (angle sr.toReal fc.toReal)
  have hx' := abs_le.mp hx
  have hy : 0 < Real.sin (angle sr.toReal fc.toReal) := hv.params.sin_pos
  have hy1 := Real.sin_le_one (angle sr.toReal fc.toReal)
  have sl := (shelfShape (R := slopeR (gainA db.toReal) slope.toReal) hA h.gain.le h.gain.ge hG hR hx hy hy1).sum hA h.gain.le hG hR
  have sh := (shelfShape (R := slopeR (gainA db.toReal) slope.toReal) (x := -Real.cos (angle sr.toReal fc.toReal)) hA h.gain.le h.gain.ge hG hR
    (by rwa [_root_.abs_neg]) hy hy1).sum hA h.gain.le hG hR
  simp only [mul_neg, ← sub_eq_add_neg, sub_neg_eq_add] at sh
  have hAG := pow_le_pow_left₀ hA.le h.gain.le 2
  have h8 := h.margin
  have := m1.le_one
  have hE0 : 0 ≤ gainErr f k G (slopeR (gainA db.toReal) slope.toReal) := by
    have : 0 ≤ 1 + slopeR (gainA db.toReal) slope.toReal := by linarith
    unfold gainErr; positivity
  have hκ : 0 ≤ gainCond k G (slopeR (gainA db.toReal) slope.toReal) := by
    have : 0 ≤ 1 + slopeR (gainA db.toReal) slope.toReal := by linarith
    unfold gainCond; positivity
  have hd : 22 * (1 + dbFactor db.toReal) ≤ 44 * G ^ 2 := by rw [← gainA_sq]; linarith
  have hPp : 0 < 2 * √(gainA db.toReal) * alphaS sr.toReal fc.toReal (gainA db.toReal) slope.toReal := by
    have := hv.alphaS_pos hA
    positivity
  have hN : ∀ c : ℝ, |c| ≤ 1 → gainA db.toReal + 1 + (gainA db.toReal - 1) * c ≤ gainA db.toReal + 1 + |gainA db.toReal - 1| := fun c hc => by
    have := (le_abs_self ((gainA db.toReal - 1) * c)).trans_eq (abs_mul _ _)
    have := mul_le_mul_of_nonneg_left hc (abs_nonneg (gainA db.toReal - 1))
    linarith
  refine ⟨fun s r => ?_, fun s r => ?_⟩
  · obtain ⟨Q, e, hQ, hN0, ke⟩ := kernel_shelf (σ := 1) hv hA (by norm_num) (.inl rfl) hS
    have hsum := shelf_sum ke hQ hA h.gain.le h.gain.ge hy hN0 (hN _ hx)
    refine ((gain_tracks_sum (Γ := 44 * G ^ 2) (w1 s) hG (by linarith) ?_ hX ?_ hsum (r.implements _ _ _ _)
      (fun b => ((C133_shelves b hv hS).1 r).gainAtMost ((r.implements _ _ _ _).isConvolution b) hd) hκ hprec ?_).congr
      (fun _ _ _ => LowShelf.responds_iff _) (fun _ _ _ => Iff.rfl)).le (le_of_eq (by ring))
    · rw [show ∀ a b : ℝ, -2 * a / b = -(2 * a / b) from fun a b => by ring, _root_.abs_neg]
      exact sl
    · have hks := ke.solves
      generalize 2 * √(gainA db.toReal) * alphaS sr.toReal fc.toReal (gainA db.toReal) slope.toReal = P at *
      generalize gainA db.toReal = A at *
      generalize Real.cos (angle sr.toReal fc.toReal) = c at *
      obtain ⟨N, hN'⟩ : ∃ N, N = A + 1 + (A - 1) * c := ⟨_, rfl⟩
      convert hks using 1
      · rw [← hN'] at hN0 ⊢; field_simp
      · rw [← hN'] at hN0 ⊢; field_simp
    · refine le_trans (le_of_eq ?_) hrange
      ring
  · obtain ⟨Q, e, hQ, hN0, ke⟩ := kernel_shelf (σ := -1) hv hA (by norm_num) (.inr rfl) hS
    have hsum := shelf_sum ke hQ hA h.gain.le h.gain.ge hy hN0 (hN _ (by rwa [_root_.abs_neg]))
    refine ((gain_tracks_sum (Γ := 44 * G ^ 2) (w2 s) hG (by linarith) ?_ hX ?_ hsum (r.implements _ _ _ _)
      (fun b => ((C133_shelves b hv hS).2 r).gainAtMost ((r.implements _ _ _ _).isConvolution b) hd) hκ hprec ?_).congr
      (fun _ _ _ => HighShelf.responds_iff _) (fun _ _ _ => Iff.rfl)).le (le_of_eq (by ring))
    · rw [show ∀ a b c : ℝ, -2 * a * b / c = -(2 * a * b / c) from fun a b c => by ring, _root_.abs_neg]
      exact sh
    · have hks := ke.solves
      generalize 2 * √(gainA db.toReal) * alphaS sr.toReal fc.toReal (gainA db.toReal) slope.toReal = P at *
      generalize gainA db.toReal = A at *
      generalize Real.cos (angle sr.toReal fc.toReal) = c at *
      rw [show A + 1 - (A - 1) * c = A + 1 + (A - 1) * -c by ring]
      obtain ⟨N, hN'⟩ : ∃ N, N = A + 1 + (A - 1) * -c := ⟨_, rfl⟩
      convert hks using 1
      · rw [← hN'] at hN0 ⊢; field_simp; ring
      · rw [← hN'] at hN0 ⊢; field_simp
    · refine le_trans (le_of_eq ?_) hrange
      ring

end

/-- **C134** in f64: gains up to 12 dB, from a fifty thousandth of the sample rate. -/
theorem C134_gain_f64 {L : Libm binary64} (hL : AccurateTrig L 2) (hP : AccuratePow L 2) {sr fc db : Fl L} (hsr : sr.Finite) (hfc : fc.Finite)
    (hdb : db.Finite) (h1 : 1 ≤ sr.toReal) (h2 : sr.toReal ≤ 2 ^ 100) {r : ℝ} (hr : 1 / 50000 ≤ r) (h3 : r * sr.toReal ≤ fc.toReal)
    (h4 : fc.toReal ≤ (1 / 2 - r) * sr.toReal) (hd : |db.toReal| ≤ 12) {X : ℝ} (hX : 0 ≤ X) (hX1 : X ≤ 2 ^ 100) :
    (∀ q : Fl L, q.Finite → 1 ≤ q.toReal → q.toReal ≤ 2 → ∀ (s : Peak (Fl L)) (t : Peak ℝ),
      Tracks (s.setCoefficients sr fc db q) (t.setCoefficients sr.toReal fc.toReal db.toReal q.toReal) X
        (6 / (10 ^ 9 * r ^ 2) * (X + 1 / 2 ^ 200))) ∧
    (∀ slope : Fl L, slope.Finite → 3 / 5 ≤ slope.toReal → slope.toReal ≤ 1 →
      (∀ (s : LowShelf (Fl L)) (t : LowShelf ℝ),
        Tracks (s.setCoefficients sr fc db slope) (t.setCoefficients sr.toReal fc.toReal db.toReal slope.toReal) X
          (3 / (10 ^ 8 * r ^ 2) * (X + 1 / 2 ^ 200))) ∧
      (∀ (s : HighShelf (Fl L)) (t : HighShelf ℝ),
        Tracks (s.setCoefficients sr fc db slope) (t.setCoefficients sr.toReal fc.toReal db.toReal slope.toReal) X
          (3 / (10 ^ 8 * r ^ 2) * (X + 1 / 2 ^ 200)))) := by
  have hbig : (2 : ℝ) ^ (250 : ℤ) ≤ 2 ^ binary64.emax := zpow_le_zpow_right₀ one_le_two (by decide)
  have hp : (2 : ℝ) ^ binary64.p = 2 ^ 53 := rfl
  have ht : binary64.tiny ≤ 1 / 2 ^ 253 := by
    have : binary64.tiny ≤ (2 : ℝ) ^ (-253 : ℤ) := by
      unfold Fmt.tiny
      have : (2 : ℝ) ^ binary64.emin ≤ 2 ^ (-253 : ℤ) := zpow_le_zpow_right₀ one_le_two (by decide)
      have : (0 : ℝ) < 2 ^ binary64.emin := by positivity
      linarith
    refine this.trans (le_of_eq ?_)
    norm_num
  norm_num at hbig
  have ht0 := binary64.tiny_pos
  have hu : binary64.u = 1 / 2 ^ 53 := rfl
  have hr0 : 0 < r := lt_of_lt_of_le (by norm_num) hr
  have hsr0 : 0 ≤ sr.toReal := by linarith
  have ht1 : binary64.tiny ≤ 1 := ht.trans (by norm_num)
  have hg := gainIn_twelve hd
  have hA := gainA_pos db.toReal
  have hs := sin_angle_ge (by linarith) hr0 h3 h4
  have hs2 : 16 * r ^ 2 ≤ Real.sin (angle sr.toReal fc.toReal) ^ 2 := by
    have := pow_le_pow_left₀ (by positivity) hs 2
    linarith
  have hr2 : 1 / r ^ 2 ≤ 2500000000 := by
    rw [div_le_iff₀ (by positivity)]
    have := pow_le_pow_left₀ (by norm_num) hr 2
    norm_num at this ⊢
    linarith
  have hr2' : 0 ≤ 1 / r ^ 2 := by positivity
  have hdiv : ∀ {c : ℝ}, 0 ≤ c → c / Real.sin (angle sr.toReal fc.toReal) ^ 2 ≤ c / 16 * (1 / r ^ 2) := fun {c} hc => by
    refine (div_le_div_of_nonneg_left hc (by positivity) hs2).trans (le_of_eq ?_)
    field_simp
  have h3' := (mul_le_mul_of_nonneg_right hr hsr0).trans h3
  have h4' : fc.toReal ≤ (1 / 2 - 1 / 50000) * sr.toReal := h4.trans (mul_le_mul_of_nonneg_right (by linarith) hsr0)
  have hrange : ∀ {κ c : ℝ}, 0 ≤ κ → κ ≤ 2 ^ 20 → c ≤ 2 ^ 20 → κ * ((c + 1 + 2 ^ binary64.p) * (X + binary64.tiny)) ≤ 2 ^ binary64.emax := by
    intro κ c h0 hκ hc
    rw [hp]
    refine le_trans (mul_le_mul_of_nonneg_left (mul_le_mul_of_nonneg_right (show c + 1 + 2 ^ 53 ≤ 2 ^ 54 by norm_num at hc ⊢; linarith) (by linarith)) h0) ?_
    refine le_trans (mul_le_mul hκ (mul_le_mul_of_nonneg_left (show X + binary64.tiny ≤ 2 ^ 100 + 1 by linarith) (by norm_num)) (by positivity) (by norm_num)) ?_
    norm_num
    linarith
  have bound : ∀ {K κ c : ℝ}, 0 ≤ c → K * κ ≤ c * (1 / r ^ 2) → ∀ {d D : ℝ}, 0 ≤ d → c * d ≤ D * 2 ^ 53 → K * κ * d * (binary64.u * X + binary64.tiny) ≤
      D / r ^ 2 * (X + 1 / 2 ^ 200) := by
    intro K κ c hc hK d D hd hD
    have e2 : binary64.u * X + binary64.tiny ≤ 1 / 2 ^ 53 * (X + 1 / 2 ^ 200) := by rw [hu]; norm_num at ht ⊢; linarith
    have e1 : K * κ * d ≤ c * (1 / r ^ 2) * d := mul_le_mul_of_nonneg_right hK hd
    refine (mul_le_mul e1 e2 (add_nonneg (mul_nonneg binary64.u_pos.le hX) ht0.le) (by positivity)).trans ?_
    rw [← mul_assoc]
    refine mul_le_mul_of_nonneg_right ?_ (by positivity)
    rw [show c * (1 / r ^ 2) * d * (1 / 2 ^ 53) = c * d / 2 ^ 53 * (1 / r ^ 2) by ring, div_eq_mul_one_div D]
    refine mul_le_mul_of_nonneg_right ?_ hr2'
    rwa [div_le_iff₀ (by norm_num)]
  constructor
  · intro q hq h5 h6 s t
    obtain ⟨_, _, hR, _⟩ := peakResolved_of (k := 2) (r := 1 / 50000) (Q := 2) (X := X) (by norm_num) (by norm_num) (by norm_num) hg (by norm_num)
      (by rw [hu]; norm_num) (by norm_num [binary64]) hsr hfc hq hdb hd h1 (by norm_num at h2; linarith) h3' h4' h5 h6
      (by norm_num at hX1 ⊢; linarith)
    have hκ0 : 0 ≤ gainCond 2 2 (1 / (2 * q.toReal)) := by unfold gainCond; positivity
    have hκ : gainCond 2 2 (1 / (2 * q.toReal)) ≤ 238176 := by
      have : 1 / (2 * q.toReal) ≤ 1 / 2 := one_div_le_one_div_of_le (by norm_num) (by linarith)
      unfold gainCond
      linarith
    have hK := hdiv (c := 12 * q.toReal * 2) (by positivity)
    have hK' : 12 * q.toReal * 2 / Real.sin (angle sr.toReal fc.toReal) ^ 2 ≤ 3 * (1 / r ^ 2) :=
      hK.trans (mul_le_mul_of_nonneg_right (by linarith) hr2')
    have hKκ := mul_le_mul hK' hκ hκ0 (by positivity)
    refine (C134_peak hL hP binary64_roomy (by decide) (by norm_num) hR hX ?_ ?_ (hrange hκ0 (hκ.trans (by norm_num)) (by norm_num)) s t).le
      ((bound (by norm_num) (hKκ.trans (le_of_eq (by ring : _ = 714528 * (1 / r ^ 2)))) (by norm_num) (D := 6 / 10 ^ 9) (by norm_num)).trans (le_of_eq ?_))
    · have := hg.ge
      nlinarith
    · rw [hp]
      norm_num at hKκ hr2 ⊢
      linarith
    · rw [div_div]
  · intro slope hsl h5 h6
    obtain ⟨_, he, hR, _⟩ := shelfResolved_of (k := 2) (r := 1 / 50000) (B := 2.13) (g := 1.42) (X := X) (by norm_num) (by norm_num) hg
      (by norm_num) (by norm_num) (by norm_num) (by norm_num)
      (by rw [hu]; norm_num) hsr hfc hsl hdb hd h1 (by norm_num at h2; linarith) (by linarith)
      h3' h4' (by linarith) h6 (by norm_num at hX1 ⊢; linarith)
    have hR1 := one_le_slopeR hA hR.valid.2.2.1 hR.valid.2.2.2
    have hRB : slopeR (gainA db.toReal) slope.toReal ≤ 2.13 := slopeR_le hg.le hg.ge hA (by linarith) h6 (by norm_num) (by norm_num)
    have hκ0 : 0 ≤ gainCond 2 2 (slopeR (gainA db.toReal) slope.toReal) := by
      have : 0 ≤ 1 + slopeR (gainA db.toReal) slope.toReal := by linarith
      unfold gainCond; positivity
    have hκ : gainCond 2 2 (slopeR (gainA db.toReal) slope.toReal) ≤ 496368 := by
      unfold gainCond
      norm_num at hRB
      linarith
    have hK' := hdiv (c := 9 * 2) (by positivity)
    have hKκ := mul_le_mul hK' hκ hκ0 (by positivity)
    have hb := (bound (by norm_num) (hKκ.trans (le_of_eq (by ring : _ = 558414 * (1 / r ^ 2)))) (d := 88 * 2 ^ 2 + 3) (by norm_num) (D := 3 / 10 ^ 8)
      (by norm_num)).trans (le_of_eq (by rw [div_div] : _ = 3 / (10 ^ 8 * r ^ 2) * (X + 1 / 2 ^ 200)))
    have hS : (gainA db.toReal + 1 / gainA db.toReal) * (1 / slope.toReal - 1) ≤ 2 := by
      have e1 : gainA db.toReal + 1 / gainA db.toReal ≤ 5 / 2 := by
        have := hg.le
        have := hg.ge
        rw [← sub_nonneg, show 5 / 2 - (gainA db.toReal + 1 / gainA db.toReal) = (5 / 2 * gainA db.toReal - gainA db.toReal ^ 2 - 1) / gainA db.toReal by
          field_simp; ring]
        refine div_nonneg ?_ hA.le
        nlinarith
      have e2 : 1 / slope.toReal - 1 ≤ 2 / 3 := by
        have : 1 / slope.toReal ≤ 1 / (3 / 5) := one_div_le_one_div_of_le (by norm_num) h5
        norm_num at this ⊢
        linarith
      have e3 : 0 ≤ gainA db.toReal + 1 / gainA db.toReal := by positivity
      nlinarith
    obtain ⟨t1, t2⟩ := C134_shelves hL hP binary64_roomy (by decide) (by norm_num) hR hX hS (by
      rw [hp]
      norm_num at hKκ hr2 ⊢
      linarith) (hrange hκ0 (hκ.trans (by norm_num)) (by norm_num))
    exact ⟨fun s t => (t1 s t).le hb, fun s t => (t2 s t).le hb⟩

/-! ## The hypotheses are met -/

/-- 48 kHz, 48 Hz, `q = 1` with a library that rounds correctly: signals in `[-1, 1]` are filtered to within `10⁻⁵`. -/
example : ∃ (L : Libm binary64) (sr fc q : Fl L), AccurateTrig L 2 ∧ sr.toReal = 48000 ∧ fc.toReal = 48 ∧ q.toReal = 1 ∧
    ∀ (s : LowPass (Fl L)) (t : LowPass ℝ), Tracks (s.setCoefficients sr fc q) (t.setCoefficients 48000 48 1) 1 (1 / 10 ^ 5) := by
  let L : Libm binary64 :=
    { exp := id, cos := fun x => FP.ofReal binary64 false (Real.cos x.toReal),
      sin := fun x => FP.ofReal binary64 false (Real.sin x.toReal), log10 := id, powf := fun x _ => x }
  have hl : ∀ v : ℝ, |v| ≤ 2 ^ 100 → |v| < binary64.lim := by
    intro v h
    have : (2 : ℝ) ^ (101 : ℤ) ≤ binary64.lim := zpow_le_zpow_right₀ one_le_two (by decide)
    norm_num at h this ⊢
    linarith
  obtain ⟨a, ha⟩ := exists_of_isRep L (v := 48000) (by exact_mod_cast isRep_nat (f := binary64) (n := 48000) (by norm_num [binary64]))
    (hl _ (by norm_num))
  obtain ⟨b, hb⟩ := exists_of_isRep L (v := 48) (by exact_mod_cast isRep_nat (f := binary64) (n := 48) (by norm_num [binary64]))
    (hl _ (by norm_num))
  have hL : AccurateTrig L 2 := .of_rounded binary64_roomy (fun _ _ => rfl) (fun _ _ => rfl)
  refine ⟨L, a, b, one, hL, ha.2, hb.2, one_toReal, fun s t => ?_⟩
  have h1 : (one : Fl L).toReal = 1 := one_toReal
  have := (C134_f64 hL ha.1 hb.1 one_finite (by rw [ha.2]; norm_num) (by rw [ha.2]; norm_num) (r := 1 / 1000) (by norm_num)
    (by rw [ha.2, hb.2]; norm_num) (by rw [ha.2, hb.2]; norm_num) (by rw [h1]; norm_num) h1.le zero_le_one (by norm_num)).1 s t
  rw [ha.2, hb.2, h1] at this
  exact this.le (by norm_num)

end Rasp
