import Verif.Props.Response
import Verif.Spec.Oversampling
import Mathlib.Analysis.SpecialFunctions.Trigonometric.ArctanDeriv
import Mathlib.Analysis.Real.Pi.Bounds

/-!
# C146: the rbj filters at high sample rates are the analog filters
-/

namespace Rasp
open Filter

/-! ## Warping of the frequency axis -/

theorem tan_div_strictMono : StrictMonoOn (fun x : ℝ => Real.tan x / x) (Set.Ioo 0 (Real.pi / 2)) := by
  have hd : ∀ x ∈ Set.Ioo (0 : ℝ) (Real.pi / 2), HasDerivAt (fun x : ℝ => Real.tan x / x) ((1 / Real.cos x ^ 2 * x - Real.tan x * 1) / x ^ 2) x := by
    intro x hx
    have hc : Real.cos x ≠ 0 := (Real.cos_pos_of_mem_Ioo ⟨by linarith [hx.1, Real.pi_pos], hx.2⟩).ne'
    exact (Real.hasDerivAt_tan hc).div (hasDerivAt_id x) hx.1.ne'
  refine strictMonoOn_of_deriv_pos (convex_Ioo _ _) (fun x hx => (hd x hx).continuousAt.continuousWithinAt) ?_
  intro x hx
  rw [interior_Ioo] at hx
  rw [(hd x hx).deriv]
  have hc : 0 < Real.cos x := Real.cos_pos_of_mem_Ioo ⟨by linarith [hx.1, Real.pi_pos], hx.2⟩
  have h2 := Real.sin_lt (show 0 < 2 * x by linarith [hx.1])
  rw [Real.sin_two_mul] at h2
  refine div_pos ?_ (pow_pos hx.1 2)
  rw [Real.tan_eq_sin_div_cos, show 1 / Real.cos x ^ 2 * x - Real.sin x / Real.cos x * 1 = (x - Real.sin x * Real.cos x) / Real.cos x ^ 2 by field_simp]
  exact div_pos (by linarith) (by positivity)

theorem tan_bounds {x : ℝ} (h0 : 0 < x) (h1 : x < Real.pi / 2) : 1 ≤ Real.tan x / x ∧ Real.tan x / x ≤ 1 / Real.cos x := by
  have hc : 0 < Real.cos x := Real.cos_pos_of_mem_Ioo ⟨by linarith [Real.pi_pos], h1⟩
  have := Real.lt_tan h0 h1
  have := Real.sin_lt h0
  constructor
  · rw [le_div_iff₀ h0]; linarith
  · rw [Real.tan_eq_sin_div_cos, div_le_div_iff₀ h0 hc, div_mul_cancel₀ _ hc.ne']; linarith

/-- **C146.** The digital filter tuned to `f` answers to `F` as the analog filter to `r F`: the factor `r` is between `cos (π f/sr)` and
`1/cos (π F/sr)`, above 1 for frequencies above the tuning and below 1 for frequencies below it. -/
theorem C146_warp {sr f F : ℝ} (hf : 0 < f) (hf' : f < sr / 2) (hF : 0 < F) (hF' : F < sr / 2) :
    ∃ r : ℝ, analogPoint sr f (angle sr F) = hertz f (r * F) ∧ Real.cos (Real.pi * f / sr) ≤ r ∧ r ≤ 1 / Real.cos (Real.pi * F / sr) ∧
      (f < F → 1 < r) ∧ (F < f → r < 1) := by
  have hpi := Real.pi_pos
  have hsr : 0 < sr := by linarith
  have hm : ∀ G : ℝ, 0 < G → G < sr / 2 → Real.pi * G / sr ∈ Set.Ioo (0 : ℝ) (Real.pi / 2) := fun G h0 h1 =>
    ⟨by positivity, by rw [div_lt_iff₀ hsr]; nlinarith⟩
  have hx := hm F hF hF'
  have hx0 := hm f hf hf'
  have hc0 : 0 < Real.cos (Real.pi * f / sr) := Real.cos_pos_of_mem_Ioo ⟨by linarith [hx0.1], hx0.2⟩
  obtain ⟨b1, b2⟩ := tan_bounds hx.1 hx.2
  obtain ⟨c1, c2⟩ := tan_bounds hx0.1 hx0.2
  have ha : ∀ G : ℝ, angle sr G / 2 = Real.pi * G / sr := fun G => by unfold angle; ring
  have mono : ∀ {G K : ℝ}, 0 < G → G < sr / 2 → 0 < K → K < sr / 2 → G < K →
      Real.tan (Real.pi * G / sr) / (Real.pi * G / sr) < Real.tan (Real.pi * K / sr) / (Real.pi * K / sr) := fun g0 g1 k0 k1 h =>
    tan_div_strictMono (hm _ g0 g1) (hm _ k0 k1) (by rw [div_lt_div_iff_of_pos_right hsr]; nlinarith)
  have e : Real.tan (Real.pi * F / sr) / Real.tan (Real.pi * f / sr) =
      (Real.tan (Real.pi * F / sr) / (Real.pi * F / sr)) / (Real.tan (Real.pi * f / sr) / (Real.pi * f / sr)) * F / f := by
    have : Real.tan (Real.pi * f / sr) ≠ 0 := by
      intro h; rw [h] at c1; simp at c1; linarith
    field_simp
  refine ⟨(Real.tan (Real.pi * F / sr) / (Real.pi * F / sr)) / (Real.tan (Real.pi * f / sr) / (Real.pi * f / sr)), ?_, ?_, ?_, ?_, ?_⟩
  · rw [analogPoint, hertz, ha, ha, e]
  · have := mono hf hf' hF hF'
    generalize Real.tan (Real.pi * F / sr) / (Real.pi * F / sr) = t at *
    generalize Real.tan (Real.pi * f / sr) / (Real.pi * f / sr) = u at *
    rw [le_div_iff₀ (by linarith)]
    rw [le_div_iff₀ hc0] at c2
    linarith
  · have : 0 ≤ 1 / Real.cos (Real.pi * F / sr) := by linarith
    refine div_le_of_le_mul₀ (by linarith) this ?_
    nlinarith
  · intro h
    rw [one_lt_div (by linarith)]
    exact mono hf hf' hF hF' h
  · intro h
    rw [div_lt_one (by linarith)]
    exact mono hF hF' hf hf' h

/-! ## The limit -/

theorem tan_div_tendsto (G : ℝ) : Tendsto (fun sr : ℝ => sr * Real.tan (Real.pi * G / sr)) atTop (nhds (Real.pi * G)) := by
  have h1 : HasDerivAt Real.tan 1 0 := by simpa using Real.hasDerivAt_tan (x := 0) (by simp)
  have h2 : HasDerivAt (fun t : ℝ => Real.tan (Real.pi * G * t)) (1 * (Real.pi * G)) 0 := by
    have : HasDerivAt (fun t : ℝ => Real.pi * G * t) (Real.pi * G) 0 := by simpa using (hasDerivAt_id (0 : ℝ)).const_mul (Real.pi * G)
    exact HasDerivAt.comp (0 : ℝ) (by simpa using h1) this
  have h3 := (hasDerivAt_iff_tendsto_slope_zero.1 h2).comp (tendsto_inv_atTop_nhdsGT_zero.mono_right (nhdsWithin_mono _ fun x (hx : 0 < x) => hx.ne'))
  rw [one_mul] at h3
  refine h3.congr fun sr => ?_
  simp [div_eq_mul_inv]

theorem analogPoint_tendsto {f : ℝ} (hf : 0 < f) (F : ℝ) : Tendsto (fun sr => analogPoint sr f (angle sr F)) atTop (nhds (hertz f F)) := by
  unfold analogPoint hertz
  refine Tendsto.const_mul _ ((Complex.continuous_ofReal.tendsto _).comp ?_)
  have h := (tan_div_tendsto F).div (tan_div_tendsto f) (by have := Real.pi_pos; positivity)
  rw [show Real.pi * F / (Real.pi * f) = F / f by have := Real.pi_pos; field_simp] at h
  refine h.congr' ?_
  filter_upwards [eventually_gt_atTop 0] with sr hsr
  have ha : ∀ G : ℝ, angle sr G / 2 = Real.pi * G / sr := fun G => by unfold angle; ring
  rw [ha, ha]
  simp only [Pi.div_apply]
  rw [mul_div_mul_left _ _ hsr.ne']

theorem eventually_valid {f : ℝ} (hf : 0 < f) (F : ℝ) : ∀ᶠ sr : ℝ in atTop, f < sr / 2 ∧ Real.cos (angle sr F / 2) ≠ 0 := by
  have hpi := Real.pi_pos
  filter_upwards [eventually_gt_atTop (2 * f + 2 * |F|)] with sr hsr
  have hF := abs_nonneg F
  have hsr0 : 0 < sr := by linarith
  refine ⟨by linarith, (Real.cos_pos_of_mem_Ioo ?_).ne'⟩
  have : |angle sr F / 2| < Real.pi / 2 := by
    rw [show angle sr F / 2 = Real.pi * F / sr by unfold angle; ring, abs_div, abs_mul, abs_of_pos hpi, abs_of_pos hsr0, div_lt_iff₀ hsr0]
    nlinarith
  exact abs_lt.1 this

theorem quad_ne {t B : ℝ} {a c : ℝ} (hB : 0 < B) (hc : 0 < c) : (a : ℂ) * (Complex.I * (t : ℂ)) ^ 2 + (B : ℂ) * (Complex.I * t) + c ≠ 0 := by
  intro h
  have h1 := congrArg Complex.im h
  have h2 := congrArg Complex.re h
  simp [sq, Complex.mul_re, Complex.mul_im] at h1 h2
  rcases h1 with h1 | h1
  · linarith
  · rw [h1] at h2; simp at h2; linarith

/-- **C146.** As the sample rate grows, every rbj filter without gain in dB, tuned to `f` Hz, has at every frequency `F` in the limit the gain
and phase of the analog filter: the transfer function at `i F/f`. -/
theorem C146_limit {f q : ℝ} (hf : 0 < f) (hq : 0 < q) (F : ℝ) :
    (∀ s : LowPass ℝ, TendsToAnalog (fun sr => s.setCoefficients sr f q) F (analogLowPass q (hertz f F))) ∧
    (∀ s : HighPass ℝ, TendsToAnalog (fun sr => s.setCoefficients sr f q) F (analogHighPass q (hertz f F))) ∧
    (∀ s : BandPass1 ℝ, TendsToAnalog (fun sr => s.setCoefficients sr f q) F (analogBandPass1 q (hertz f F))) ∧
    (∀ s : BandPass2 ℝ, TendsToAnalog (fun sr => s.setCoefficients sr f q) F (analogBandPass2 q (hertz f F))) ∧
    (∀ s : BandStop ℝ, TendsToAnalog (fun sr => s.setCoefficients sr f q) F (analogBandStop q (hertz f F))) ∧
    (∀ s : AllPass ℝ, TendsToAnalog (fun sr => s.setCoefficients sr f q) F (analogAllPass q (hertz f F))) ∧
    (∀ (s : Peak ℝ) (db : ℝ), TendsToAnalog (fun sr => s.setCoefficients sr f db q) F (analogPeak q (10 ^ (db / 40)) (hertz f F))) := by
  have hz := analogPoint_tendsto hf F
  have hev := eventually_valid hf F
  have hd : ∀ {A : ℝ}, 0 < A → hertz f F ^ 2 + hertz f F / ((A * q : ℝ) : ℂ) + 1 ≠ 0 := fun hA => by
    have := quad_ne (t := F / f) (a := 1) (B := 1 / (_ * q)) (c := 1) (one_div_pos.2 (mul_pos hA hq)) one_pos
    rw [hertz]
    intro h0
    apply this
    rw [← h0]
    push_cast
    ring
  have hd1 : hertz f F ^ 2 + hertz f F / (q : ℂ) + 1 ≠ 0 := by simpa using hd one_pos
  have hA : ∀ db : ℝ, (0 : ℝ) < 10 ^ (db / 40) := fun db => by positivity
  have C := fun sr (h : f < sr / 2 ∧ Real.cos (angle sr F / 2) ≠ 0) => C70_analog_prototypes (sr := sr) (f := f) (q := q) (w := angle sr F) ⟨hf, h.1, hq⟩ h.2
  have dn : Tendsto (fun sr => analogPoint sr f (angle sr F) ^ 2 + analogPoint sr f (angle sr F) / q + 1) atTop
      (nhds (hertz f F ^ 2 + hertz f F / q + 1)) := ((hz.pow 2).add (hz.div_const _)).add_const 1
  refine ⟨fun s => ⟨_, hev.mono fun sr h => (C sr h).1 s, ?_⟩, fun s => ⟨_, hev.mono fun sr h => (C sr h).2.1 s, ?_⟩,
    fun s => ⟨_, hev.mono fun sr h => (C sr h).2.2.1 s, ?_⟩, fun s => ⟨_, hev.mono fun sr h => (C sr h).2.2.2.1 s, ?_⟩,
    fun s => ⟨_, hev.mono fun sr h => (C sr h).2.2.2.2.1 s, ?_⟩, fun s => ⟨_, hev.mono fun sr h => (C sr h).2.2.2.2.2.1 s, ?_⟩,
    fun s db => ⟨_, hev.mono fun sr h => (C sr h).2.2.2.2.2.2 s db, ?_⟩⟩
  · exact tendsto_const_nhds.div dn hd1
  · exact (hz.pow 2).div dn hd1
  · exact hz.div dn hd1
  · exact (hz.div_const _).div dn hd1
  · exact ((hz.pow 2).add_const 1).div dn hd1
  · exact (((hz.pow 2).sub (hz.div_const _)).add_const 1).div dn hd1
  · refine (((hz.pow 2).add (hz.mul_const _)).add_const 1).div (((hz.pow 2).add (hz.div_const _)).add_const 1) ?_
    have := hd (hA db)
    push_cast at this ⊢
    exact this

/-- **C146.** … and the shelves. -/
theorem C146_limit_shelves {f S : ℝ} (hf : 0 < f) (hS : 0 < S) (hS1 : S ≤ 1) (F db : ℝ) :
    (∀ s : LowShelf ℝ, TendsToAnalog (fun sr => s.setCoefficients sr f db S) F
      (analogLowShelf (10 ^ (db / 40)) (shelfInvQ (10 ^ (db / 40)) S) (hertz f F))) ∧
    (∀ s : HighShelf ℝ, TendsToAnalog (fun sr => s.setCoefficients sr f db S) F
      (analogHighShelf (10 ^ (db / 40)) (shelfInvQ (10 ^ (db / 40)) S) (hertz f F))) := by
  have hz := analogPoint_tendsto hf F
  have hev := eventually_valid hf F
  have hA : (0 : ℝ) < 10 ^ (db / 40) := by positivity
  have C := fun sr (h : f < sr / 2 ∧ Real.cos (angle sr F / 2) ≠ 0) => C70_analog_shelves (sr := sr) (f := f) (S := S) (w := angle sr F) ⟨hf, h.1, hS, hS1⟩ h.2 db
  generalize (10 : ℝ) ^ (db / 40) = A at *
  have hR : 0 < shelfInvQ A S := by
    unfold shelfInvQ
    apply Real.sqrt_pos.2
    have : 0 ≤ (A + 1 / A) * (1 / S - 1) := mul_nonneg (by positivity) (by rw [sub_nonneg, le_div_iff₀ hS]; linarith)
    linarith
  have hB : 0 < Real.sqrt A * shelfInvQ A S := mul_pos (Real.sqrt_pos.2 hA) hR
  refine ⟨fun s => ⟨_, hev.mono fun sr h => (C sr h).1 s, ?_⟩, fun s => ⟨_, hev.mono fun sr h => (C sr h).2 s, ?_⟩⟩
  · refine Tendsto.const_mul _ ((((hz.pow 2).add (hz.const_mul _)).add_const _).div ((((hz.pow 2).const_mul _).add (hz.const_mul _)).add_const _) ?_)
    have := quad_ne (t := F / f) (a := A) hB one_pos
    rw [Complex.ofReal_one] at this
    exact this
  · refine Tendsto.const_mul _ (((((hz.pow 2).const_mul _).add (hz.const_mul _)).add_const _).div (((hz.pow 2).add (hz.const_mul _)).add_const _) ?_)
    have := quad_ne (t := F / f) (a := 1) hB hA
    rw [Complex.ofReal_one, one_mul] at this
    exact this

/-- **C146**: up to a tenth of the sample rate (4.8 kHz at 48 kHz) frequencies are off by at most 5.2 %. -/
theorem C146_tenth {sr f F : ℝ} (hf : 0 < f) (hf' : f ≤ sr / 10) (hF : 0 < F) (hF' : F ≤ sr / 10) :
    ∃ r : ℝ, analogPoint sr f (angle sr F) = hertz f (r * F) ∧ |r - 1| ≤ 0.052 := by
  obtain ⟨r, h1, h2, h3, -, -⟩ := C146_warp (sr := sr) (f := f) (F := F) hf (by linarith) hF (by linarith)
  have hsr : 0 < sr := by linarith
  have key : ∀ G : ℝ, 0 < G → G ≤ sr / 10 → 0.9506 ≤ Real.cos (Real.pi * G / sr) := by
    intro G hG hG'
    have hc := Real.one_sub_sq_div_two_le_cos (x := Real.pi * G / sr)
    have h0 : 0 ≤ Real.pi * G / sr := by have := Real.pi_pos; positivity
    have h1 : Real.pi * G / sr ≤ 0.31416 := by
      rw [div_le_iff₀ hsr]
      have := mul_le_mul Real.pi_lt_d4.le hG' hG.le (by norm_num)
      linarith
    have := mul_le_mul h1 h1 h0 (by norm_num)
    nlinarith
  refine ⟨r, h1, abs_le.2 ⟨?_, ?_⟩⟩
  · have := key f hf hf'
    linarith
  · have hk := key F hF hF'
    have : 1 / Real.cos (Real.pi * F / sr) ≤ 1.052 := by
      rw [div_le_iff₀ (by linarith)]
      linarith
    linarith

/-- At 48 kHz a filter tuned to 1 kHz treats 4.8 kHz as the analog one a frequency up to 5.2 % above. -/
example : ∃ r : ℝ, analogPoint 48000 1000 (angle 48000 4800) = hertz 1000 (r * 4800) ∧ |r - 1| ≤ 0.052 :=
  C146_tenth (by norm_num) (by norm_num) (by norm_num) (by norm_num)

/-- A low-pass filter at its own frequency tends to the gain `q`, a quarter turn behind. -/
example (s : LowPass ℝ) : TendsToAnalog (fun sr => s.setCoefficients sr 1000 3) 1000 (-(3 * Complex.I)) := by
  have h := (C146_limit (f := 1000) (q := 3) (by norm_num) (by norm_num) 1000).1 s
  rw [show analogLowPass 3 (hertz 1000 1000) = -(3 * Complex.I) by
    simp [analogLowPass, hertz]] at h
  exact h

end Rasp
