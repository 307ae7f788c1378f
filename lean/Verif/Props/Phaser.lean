import Verif.Spec.Phaser
import Verif.Props.Phase
import Verif.Props.Series
import Verif.Props.Periodic
import Verif.Props.Shape

/-!
# C162: phasers of all-pass filters
-/

namespace Rasp
open Filter hiding pi
open Real (cos sin pi)
variable {b : Build} {sr : ℝ} {ss : List (AllPass ℝ × ℝ × ℝ)} {w A φ : ℝ} {x y z : ℕ → ℝ}

/-- One all-pass filter on an input that settles. -/
theorem allPass_settles {f q θ : ℝ} (h : ValidParams sr f q) (s : AllPass ℝ) (hs : ShiftsBy (s.setCoefficients sr f q) w 1 θ) (hx : SettlesTo x A w φ)
    (hz : Responds b (s.setCoefficients sr f q) x z) : SettlesTo z A w (φ + θ) := by
  have e : ∀ a : ℝ, ‖Complex.exp (θ * Complex.I)‖ * cos (a + (Complex.exp (θ * Complex.I)).arg) = cos (a + θ) := fun a => by
    rw [norm_mul_cos_add_arg, Complex.exp_ofReal_mul_I_re, Complex.exp_ofReal_mul_I_im, Real.cos_add]
    ring
  have hn : ‖Complex.exp (θ * Complex.I)‖ = 1 := Complex.norm_exp_ofReal_mul_I θ
  have hg : SinusoidGain (s.setCoefficients sr f q) w (Complex.exp (θ * Complex.I)) := fun A φ => by
    have := hs A φ
    simp only [one_mul] at this
    convert this using 2 with n
    rw [mul_right_comm, e]
    ring
  obtain ⟨z', h1, h2⟩ := C95_series b w [(stage (s.setCoefficients sr f q), Complex.exp (θ * Complex.I))] (by
    intro p hp
    rw [List.mem_singleton] at hp
    subst hp
    exact ⟨(s.implements sr f q).isLinear, (s.implements sr f q).from.vanishes h.stableQ, hg⟩) A φ x hx
  obtain ⟨z'', h3, h4⟩ := h1
  have h5 : z' = z'' := h4
  rw [h5, Responds.unique h3 hz] at h2
  simp only [List.map_cons, List.map_nil, List.prod_cons, List.prod_nil, List.sum_cons, List.sum_nil, mul_one, add_zero, hn] at h2
  unfold SettlesTo at h2 ⊢
  convert h2 using 2 with n
  have := e (w * n + φ)
  rw [hn, one_mul] at this
  rw [← add_assoc, ← add_assoc, this]

/-- The common phase of a chain: half of what it lags. -/
theorem chain_phase (sr : ℝ) : ∀ ss : List (AllPass ℝ × ℝ × ℝ), (∀ p ∈ ss, ValidParams sr p.2.1 p.2.2) → ∃ Ψ : ℝ → ℝ, Ψ 0 = 0 ∧ Ψ pi = ss.length * pi ∧
    ContinuousOn Ψ (Set.Icc 0 pi) ∧ MonotoneOn Ψ (Set.Icc 0 pi) ∧ (ss ≠ [] → StrictMonoOn Ψ (Set.Icc 0 pi)) ∧
    (∀ f, (∀ p ∈ ss, p.2.1 = f) → Ψ (angle sr f) = ss.length * pi / 2) ∧ ∀ w ∈ Set.Icc 0 pi, ∀ (b : Build) (A φ : ℝ) (x z : ℕ → ℝ), SettlesTo x A w φ → Through b (allPasses sr ss) x z → SettlesTo z A w (φ - 2 * Ψ w)
  | [], _ => ⟨fun _ => 0, rfl, by simp, continuousOn_const, monotoneOn_const, fun h => absurd rfl h, fun f _ => by simp, fun w _ b A φ x z hx hz => by
      have : z = x := hz
      rw [this]; simpa using hx⟩
  | p :: ss, h => by
    obtain ⟨Ψ, p0, p1, p2, p3, -, p6, p5⟩ := chain_phase sr ss fun q hq => h q (List.mem_cons_of_mem _ hq)
    have hv := h p List.mem_cons_self
    obtain ⟨ψ, ⟨s0, sm, s1, s2, s3⟩, hs⟩ := C93_phases hv
    refine ⟨fun w => ψ w + Ψ w, by simp only [s0, p0, add_zero], by simp only [s1, p1, List.length_cons]; push_cast; ring, s3.add p2, s2.monotoneOn.add p3,
      fun _ => s2.add_monotone p3, fun f hf => ?_, fun w hw b A φ x z hx hz => ?_⟩
    · have h1 := p6 f fun q hq => hf q (List.mem_cons_of_mem _ hq)
      have h2 := hf p List.mem_cons_self
      rw [h2] at sm
      simp only [sm, h1, List.length_cons]
      push_cast
      ring
    obtain ⟨gL, gH, g1, g2, gS, -, -, -, -, -, -, -, hap⟩ := hs w hw
    obtain ⟨v, hv1, hv2⟩ := hz
    have h1 := allPass_settles hv p.1 (hap p.1) hx hv1
    have h2 := p5 w hw b A _ v z h1 hv2
    convert h2 using 1
    ring

theorem chain_runs (b : Build) (sr : ℝ) : ∀ (ss : List (AllPass ℝ × ℝ × ℝ)) (x : ℕ → ℝ), ∃ z, Through b (allPasses sr ss) x z
  | [], x => ⟨x, rfl⟩
  | p :: ss, x => by
    obtain ⟨v, hv⟩ := (p.1.implements sr p.2.1 p.2.2).isLinear.1 b x
    obtain ⟨z, hz⟩ := chain_runs b sr ss v
    exact ⟨z, v, hv, hz⟩

theorem cos_not_vanishing (w : ℝ) : ¬ Tendsto (fun n : ℕ => cos (w * n)) atTop (nhds 0) := fun h => by
  have h2 : Tendsto (fun n : ℕ => cos (w * ((2 * n : ℕ) : ℝ))) atTop (nhds 0) := h.comp (tendsto_id.const_mul_atTop' two_pos)
  have h3 : Tendsto (fun n : ℕ => 2 * cos (w * n) ^ 2 - 1) atTop (nhds (2 * 0 ^ 2 - 1)) := ((h.pow 2).const_mul 2).sub_const 1
  have h4 : (fun n : ℕ => cos (w * ((2 * n : ℕ) : ℝ))) = fun n : ℕ => 2 * cos (w * n) ^ 2 - 1 := by
    funext n
    rw [← Real.cos_two_mul]
    congr 1
    push_cast
    ring
  rw [h4] at h2
  have := tendsto_nhds_unique h2 h3
  norm_num at this

/-- A stream that settles to a sinusoid of this amplitude at every phase. -/
theorem settles_zero (h : SettlesTo y 0 w φ) : Tendsto y atTop (nhds 0) := by
  unfold SettlesTo at h
  simpa using h

theorem mix_settles {g Ψ : ℝ} (hx : SettlesTo x A w φ) (hz : SettlesTo z A w (φ - 2 * Ψ)) (hy : ∀ n, y n = x n + g * z n) :
    RespondsWith y A w φ (1 + g * Complex.exp ((-(2 * Ψ) : ℝ) * Complex.I)) := by
  unfold RespondsWith SettlesTo at *
  have := hx.add (hz.const_mul g)
  rw [mul_zero, add_zero] at this
  refine this.congr fun n => ?_
  have h1 := norm_mul_cos_add_arg (1 + g * Complex.exp ((-(2 * Ψ) : ℝ) * Complex.I)) (w * n + φ)
  have hre : (1 + g * Complex.exp ((-(2 * Ψ) : ℝ) * Complex.I)).re = 1 + g * cos (2 * Ψ) := by
    rw [Complex.add_re, Complex.re_ofReal_mul, Complex.exp_ofReal_mul_I_re, Real.cos_neg, Complex.one_re]
  have him : (1 + g * Complex.exp ((-(2 * Ψ) : ℝ) * Complex.I)).im = -(g * sin (2 * Ψ)) := by
    rw [Complex.add_im, Complex.im_ofReal_mul, Complex.exp_ofReal_mul_I_im, Real.sin_neg, Complex.one_im]; ring
  rw [hre, him] at h1
  rw [hy n, mul_right_comm, ← add_assoc, h1, show w * n + (φ - 2 * Ψ) = w * n + φ - 2 * Ψ by ring, Real.cos_sub (w * n + φ)]
  ring

theorem mix_gain (g Ψ : ℝ) : ‖1 + g * Complex.exp ((-(2 * Ψ) : ℝ) * Complex.I)‖ ^ 2 = (1 - g) ^ 2 + 4 * g * cos Ψ ^ 2 := by
  rw [← Complex.normSq_eq_norm_sq, Complex.normSq_apply]
  have hre : (1 + g * Complex.exp ((-(2 * Ψ) : ℝ) * Complex.I)).re = 1 + g * cos (2 * Ψ) := by
    rw [Complex.add_re, Complex.re_ofReal_mul, Complex.exp_ofReal_mul_I_re, Real.cos_neg, Complex.one_re]
  have him : (1 + g * Complex.exp ((-(2 * Ψ) : ℝ) * Complex.I)).im = -(g * sin (2 * Ψ)) := by
    rw [Complex.add_im, Complex.im_ofReal_mul, Complex.exp_ofReal_mul_I_im, Real.sin_neg, Complex.one_im]; ring
  rw [hre, him]
  have h1 := Real.sin_sq_add_cos_sq (2 * Ψ)
  have h2 := Real.cos_two_mul Ψ
  have h3 : g ^ 2 * (sin (2 * Ψ) ^ 2 + cos (2 * Ψ) ^ 2) = g ^ 2 := by rw [h1, mul_one]
  linear_combination h3 + 2 * g * h2

/-- **C162.** Phasers: `N` `AllPass` filters in series with any valid parameters, `g` times their output added to the input. There is one angle `Ψ`, continuous and strictly
increasing from 0 at DC to `N π` at Nyquist, such that the response at `w` is `1 + g e^(-2iΨ)`: the squared gain is `(1 - g)² + 4 g cos² Ψ`. -/
theorem C162_response (h : ∀ p ∈ ss, ValidParams sr p.2.1 p.2.2) (hne : ss ≠ []) : ∃ Ψ : ℝ → ℝ, Ψ 0 = 0 ∧ Ψ pi = ss.length * pi ∧
    ContinuousOn Ψ (Set.Icc 0 pi) ∧ StrictMonoOn Ψ (Set.Icc 0 pi) ∧
    (∀ f, (∀ p ∈ ss, p.2.1 = f) → Ψ (angle sr f) = ss.length * pi / 2) ∧ ∀ w ∈ Set.Icc 0 pi, ∀ (b : Build) (g : ℝ), ∃ H : ℂ,
      H = 1 + g * Complex.exp ((-(2 * Ψ w) : ℝ) * Complex.I) ∧ ‖H‖ ^ 2 = (1 - g) ^ 2 + 4 * g * cos (Ψ w) ^ 2 ∧
      (∀ x, ∃ y, Mixes b (allPasses sr ss) g x y) ∧
      ∀ (A φ : ℝ) (x y : ℕ → ℝ), SettlesTo x A w φ → Mixes b (allPasses sr ss) g x y → RespondsWith y A w φ H := by
  obtain ⟨Ψ, p0, p1, p2, -, p4, p6, p5⟩ := chain_phase sr ss h
  refine ⟨Ψ, p0, p1, p2, p4 hne, p6, fun w hw b g => ⟨_, rfl, mix_gain g _, fun x => ?_, fun A φ x y hx hy => ?_⟩⟩
  · obtain ⟨z, hz⟩ := chain_runs b sr ss x
    exact ⟨_, z, hz, fun n => rfl⟩
  · obtain ⟨z, hz, hy⟩ := hy
    exact mix_settles hx (p5 w hw b A φ x z hx hz) hy

/-- Where the gain is zero, and only there, sinusoids die out. -/
theorem nulls_iff {b : Build} {ps : List Stage} {g : ℝ} {H : ℂ} (hrun : ∀ x, ∃ y, Mixes b ps g x y)
    (hH : ∀ (A φ : ℝ) (x y : ℕ → ℝ), SettlesTo x A w φ → Mixes b ps g x y → RespondsWith y A w φ H) : Nulls b ps g w ↔ H = 0 := by
  constructor
  · intro h
    by_contra hne
    obtain ⟨y, hy⟩ := hrun fun n => 1 * cos (w * n + -H.arg)
    have hx : SettlesTo (fun n => 1 * cos (w * n + -H.arg)) 1 w (-H.arg) := by
      unfold SettlesTo; simp
    have h1 := hH _ _ _ _ hx hy
    have h2 := h _ _ _ _ hx hy
    unfold RespondsWith SettlesTo at h1
    rw [neg_add_cancel, mul_one] at h1
    have h3 := h2.sub h1
    rw [sub_zero] at h3
    refine cos_not_vanishing w ?_
    have h4 := h3.const_mul ‖H‖⁻¹
    rw [mul_zero] at h4
    refine h4.congr fun n => ?_
    have := norm_ne_zero_iff.mpr hne
    rw [sub_sub_cancel, add_zero, inv_mul_cancel_left₀ this]
  · rintro rfl A φ x y hx hy
    have := hH A φ x y hx hy
    unfold RespondsWith at this
    rw [norm_zero, zero_mul] at this
    exact settles_zero this

/-- Frequencies where a continuous, strictly increasing angle takes given values. -/
theorem count_values {Ψ : ℝ → ℝ} {M : ℝ} (p0 : Ψ 0 = 0) (p1 : Ψ pi = M) (hc : ContinuousOn Ψ (Set.Icc 0 pi)) (hm : StrictMonoOn Ψ (Set.Icc 0 pi)) {K : ℕ} {v : ℕ → ℝ}
    (hv : Function.Injective v) (hr : ∀ k < K, v k ∈ Set.Icc 0 M) : {w | w ∈ Set.Icc 0 pi ∧ ∃ k < K, Ψ w = v k}.ncard = K := by
  have hsurj : ∀ k, ∃ w, k < K → w ∈ Set.Icc 0 pi ∧ Ψ w = v k := fun k => by
    by_cases hk : k < K
    · have := intermediate_value_Icc Real.pi_pos.le hc
      rw [p0, p1] at this
      obtain ⟨w, h1, h2⟩ := this (hr k hk)
      exact ⟨w, fun _ => ⟨h1, h2⟩⟩
    · exact ⟨0, fun h => absurd h hk⟩
  choose u hu using hsurj
  have e : {w | w ∈ Set.Icc 0 pi ∧ ∃ k < K, Ψ w = v k} = u '' (Finset.range K : Set ℕ) := by
    ext w
    constructor
    · rintro ⟨h1, k, hk, h2⟩
      refine ⟨k, by simpa using hk, ?_⟩
      exact hm.injOn (hu k hk).1 h1 ((hu k hk).2.trans h2.symm)
    · rintro ⟨k, hk, rfl⟩
      have hk : k < K := by simpa using hk
      exact ⟨(hu k hk).1, k, hk, (hu k hk).2⟩
  rw [e, Set.InjOn.ncard_image, Set.ncard_coe_finset, Finset.card_range]
  intro i hi j hj hij
  have hi : i < K := by simpa using hi
  have hj : j < K := by simpa using hj
  apply hv
  rw [← (hu i hi).2, ← (hu j hj).2, hij]

/-- **C162.** Added with equal weight, `N` all-pass filters give exactly `N` notches between DC and Nyquist, whatever their parameters; subtracted, exactly `N + 1`. With any other
positive or negative weight there is none. -/
theorem C162_notches (h : ∀ p ∈ ss, ValidParams sr p.2.1 p.2.2) (hne : ss ≠ []) (b : Build) :
    {w | w ∈ Set.Icc 0 pi ∧ Nulls b (allPasses sr ss) 1 w}.ncard = ss.length ∧
    {w | w ∈ Set.Icc 0 pi ∧ Nulls b (allPasses sr ss) (-1) w}.ncard = ss.length + 1 ∧
    ∀ g : ℝ, |g| ≠ 1 → ∀ w ∈ Set.Icc 0 pi, ¬ Nulls b (allPasses sr ss) g w := by
  obtain ⟨Ψ, p0, p1, p2, p3, -, p4⟩ := C162_response h hne
  have hpi := Real.pi_pos
  have hnull : ∀ w ∈ Set.Icc 0 pi, ∀ g : ℝ, Nulls b (allPasses sr ss) g w ↔ (1 - g) ^ 2 + 4 * g * cos (Ψ w) ^ 2 = 0 := fun w hw g => by
    obtain ⟨H, -, h2, h3, h4⟩ := p4 w hw b g
    rw [nulls_iff h3 h4, ← h2, sq_eq_zero_iff, norm_eq_zero]
  have hrange : ∀ w ∈ Set.Icc 0 pi, 0 ≤ Ψ w ∧ Ψ w ≤ ss.length * pi := fun w hw => by
    rw [← p1]
    have h1 := p3.monotoneOn (Set.left_mem_Icc.mpr hpi.le) hw hw.1
    rw [p0] at h1
    exact ⟨h1, p3.monotoneOn hw (Set.right_mem_Icc.mpr hpi.le) hw.2⟩
  refine ⟨?_, ?_, fun g hg w hw hN => ?_⟩
  · have e : {w | w ∈ Set.Icc 0 pi ∧ Nulls b (allPasses sr ss) 1 w} = {w | w ∈ Set.Icc 0 pi ∧ ∃ k < ss.length, Ψ w = (2 * (k : ℝ) + 1) * pi / 2} := by
      ext w
      refine and_congr_right fun hw => ?_
      rw [hnull w hw]
      have h0 : ((1 - 1) ^ 2 + 4 * 1 * cos (Ψ w) ^ 2 = 0) ↔ cos (Ψ w) = 0 := by
        constructor
        · intro h; have : cos (Ψ w) ^ 2 = 0 := by linarith
          exact pow_eq_zero_iff two_ne_zero |>.mp this
        · intro h; rw [h]; ring
      rw [h0, Real.cos_eq_zero_iff]
      obtain ⟨r0, r1⟩ := hrange w hw
      constructor
      · rintro ⟨k, hk⟩
        rw [hk] at r0 r1
        have k0 : 0 ≤ k := by
          by_contra hneg
          have : (k : ℝ) ≤ -1 := by exact_mod_cast (show k ≤ -1 by omega)
          nlinarith
        obtain ⟨n, rfl⟩ := Int.eq_ofNat_of_zero_le k0
        refine ⟨n, ?_, by rw [hk]; norm_cast⟩
        by_contra hge
        have : (ss.length : ℝ) ≤ n := by exact_mod_cast not_lt.mp hge
        push_cast at r1
        nlinarith
      · rintro ⟨k, -, hk⟩
        exact ⟨k, by rw [hk]; norm_cast⟩
    rw [e]
    refine count_values p0 p1 p2 p3 (v := fun k : ℕ => (2 * (k : ℝ) + 1) * pi / 2) (fun i j hij => ?_) fun k hk => ?_
    · have hij : (2 * (i : ℝ) + 1) * pi / 2 = (2 * (j : ℝ) + 1) * pi / 2 := hij
      have : (i : ℝ) = j := by
        have := mul_right_cancel₀ hpi.ne' (show (2 * (i : ℝ) + 1) * pi = (2 * (j : ℝ) + 1) * pi by linarith)
        linarith
      exact_mod_cast this
    · have : (k : ℝ) + 1 ≤ ss.length := by exact_mod_cast hk
      constructor
      · positivity
      · nlinarith
  · have e : {w | w ∈ Set.Icc 0 pi ∧ Nulls b (allPasses sr ss) (-1) w} = {w | w ∈ Set.Icc 0 pi ∧ ∃ k < ss.length + 1, Ψ w = (k : ℝ) * pi} := by
      ext w
      refine and_congr_right fun hw => ?_
      rw [hnull w hw]
      have h0 : ((1 - -1) ^ 2 + 4 * -1 * cos (Ψ w) ^ 2 = 0) ↔ sin (Ψ w) = 0 := by
        have := Real.sin_sq_add_cos_sq (Ψ w)
        constructor
        · intro h; have : sin (Ψ w) ^ 2 = 0 := by linarith
          exact pow_eq_zero_iff two_ne_zero |>.mp this
        · intro h; rw [h] at this; linarith
      rw [h0, Real.sin_eq_zero_iff]
      obtain ⟨r0, r1⟩ := hrange w hw
      constructor
      · rintro ⟨k, hk⟩
        rw [← hk] at r0 r1
        have k0 : 0 ≤ k := by
          by_contra hneg
          have : (k : ℝ) ≤ -1 := by exact_mod_cast (show k ≤ -1 by omega)
          nlinarith
        obtain ⟨n, rfl⟩ := Int.eq_ofNat_of_zero_le k0
        refine ⟨n, ?_, by rw [← hk]; norm_cast⟩
        have : (n : ℝ) ≤ ss.length := by
          push_cast at r1
          exact le_of_mul_le_mul_right r1 hpi
        have : n ≤ ss.length := by exact_mod_cast this
        omega
      · rintro ⟨k, -, hk⟩
        exact ⟨k, by rw [hk]; norm_cast⟩
    rw [e]
    refine count_values p0 p1 p2 p3 (v := fun k : ℕ => (k : ℝ) * pi) (fun i j hij => ?_) fun k hk => ?_
    · exact_mod_cast mul_right_cancel₀ hpi.ne' hij
    · have : (k : ℝ) ≤ ss.length := by exact_mod_cast Nat.lt_succ_iff.mp hk
      exact ⟨by positivity, mul_le_mul_of_nonneg_right this hpi.le⟩
  · rw [hnull w hw] at hN
    have hs := Real.sin_sq_add_cos_sq (Ψ w)
    have hc := sq_nonneg (cos (Ψ w))
    have hsn := sq_nonneg (sin (Ψ w))
    have e : (1 - g) ^ 2 * sin (Ψ w) ^ 2 + (1 + g) ^ 2 * cos (Ψ w) ^ 2 = 0 := by
      have : (1 - g) ^ 2 * (sin (Ψ w) ^ 2 + cos (Ψ w) ^ 2) = (1 - g) ^ 2 := by rw [hs, mul_one]
      linarith
    have h1 : 0 < (1 - g) ^ 2 := by
      have : 1 - g ≠ 0 := fun h => hg (by rw [show g = 1 by linarith, abs_one])
      positivity
    have h2 : 0 < (1 + g) ^ 2 := by
      have : 1 + g ≠ 0 := fun h => hg (by rw [show g = -1 by linarith, abs_neg, abs_one])
      positivity
    nlinarith [mul_nonneg h1.le hsn, mul_nonneg h2.le hc]

/-- **C162.** With all filters at one frequency, whatever their quality factors, that frequency is a notch of the sum exactly if their number is odd, and of the difference exactly
if it is even. -/
theorem C162_centre {f : ℝ} (h : ∀ p ∈ ss, ValidParams sr p.2.1 p.2.2) (hne : ss ≠ []) (hf : ∀ p ∈ ss, p.2.1 = f) (b : Build) :
    (Nulls b (allPasses sr ss) 1 (angle sr f) ↔ Odd ss.length) ∧ (Nulls b (allPasses sr ss) (-1) (angle sr f) ↔ Even ss.length) := by
  obtain ⟨Ψ, -, -, -, -, p5, p4⟩ := C162_response h hne
  have hw : angle sr f ∈ Set.Icc 0 pi := by
    obtain ⟨p, hp⟩ := List.exists_mem_of_ne_nil ss hne
    have h1 := h p hp
    rw [hf p hp] at h1
    exact ⟨(angle_mem h1).1.le, (angle_mem h1).2.le⟩
  have hpi := Real.pi_pos
  have hΨ := p5 f hf
  obtain ⟨H, -, h2, h3, h4⟩ := p4 _ hw b 1
  obtain ⟨G, -, g2, g3, g4⟩ := p4 _ hw b (-1)
  rw [nulls_iff h3 h4, nulls_iff g3 g4, ← norm_eq_zero, ← norm_eq_zero (a := G), ← sq_eq_zero_iff, ← sq_eq_zero_iff (a := ‖G‖), h2, g2, hΨ]
  rcases Nat.even_or_odd' ss.length with ⟨m, hm | hm⟩
  · have e : (ss.length : ℝ) * pi / 2 = m * pi := by rw [hm]; push_cast; ring
    have hc : cos (m * pi) ^ 2 = 1 := by
      have h1 := Real.sin_sq_add_cos_sq (m * pi)
      rw [Real.sin_nat_mul_pi] at h1
      linarith
    rw [e, hc]
    exact ⟨iff_of_false (by norm_num) (by rw [hm, Nat.not_odd_iff_even]; exact even_two_mul m), iff_of_true (by norm_num) (by rw [hm]; exact even_two_mul m)⟩
  · have e : (ss.length : ℝ) * pi / 2 = (2 * (m : ℤ) + 1) * pi / 2 := by rw [hm]; push_cast; ring
    have hc : cos ((2 * (m : ℤ) + 1) * pi / 2) = 0 := Real.cos_eq_zero_iff.mpr ⟨m, rfl⟩
    rw [e, hc]
    exact ⟨iff_of_true (by norm_num) (by rw [hm]; exact odd_two_mul_add_one m), iff_of_false (by norm_num) (by rw [hm, Nat.not_even_iff_odd]; exact odd_two_mul_add_one m)⟩

/-- One stage alone has its notch at its frequency. -/
example (b : Build) (a : AllPass ℝ) : Nulls b (allPasses 44100 [(a, 1000, 3)]) 1 (angle 44100 1000) :=
  (C162_centre (f := 1000) (fun p hp => by rw [List.mem_singleton.mp hp]; constructor <;> norm_num) (by simp) (fun p hp => by rw [List.mem_singleton.mp hp]) b).1.mpr odd_one

/-- Four stages at 44.1 kHz: four notches. -/
example (b : Build) (a : AllPass ℝ) : {w | w ∈ Set.Icc 0 pi ∧ Nulls b (allPasses 44100 [(a, 200, 1), (a, 800, 2), (a, 800, 1 / 2), (a, 5000, 1)]) 1 w}.ncard = 4 := by
  refine (C162_notches (fun p hp => ?_) (by simp) b).1
  simp only [List.mem_cons, List.not_mem_nil, or_false] at hp
  rcases hp with rfl | rfl | rfl | rfl <;> constructor <;> norm_num

end Rasp
