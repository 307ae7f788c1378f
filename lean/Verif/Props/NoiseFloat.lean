import Verif.Spec.NoiseFloat
import Verif.Props.MeterNoise
import Verif.Props.Correlation
import Verif.Props.Pluck
import Verif.Props.ReadingFloat
import Verif.Props.RbjFloat
import Verif.Props.RoundingAnalysis

/-!
# C152: noise through filters and meters in floating point
-/

namespace Rasp
open MeasureTheory Filter Topology

variable {f : Fmt} {L : Libm f} {Ω : Type} [MeasurableSpace Ω] {μ : Measure Ω} {x y : ℕ → Ω → Fl L} {X E : ℝ} {b : Build}

/-- Whatever depends on finitely many random floats is integrable. -/
theorem integrable_sofar [IsProbabilityMeasure μ] (hx : RandomStream x X) (n : ℕ) {Y : Ω → ℝ}
    (hY : ∀ ω ω', (∀ k ≤ n, x k ω = x k ω') → Y ω = Y ω') : Integrable Y μ := by
  let _ : MeasurableSpace (Fl L) := ⊤
  have : MeasurableSingletonClass (Fl L) := ⟨fun _ => trivial⟩
  let p : Ω → Fin (n + 1) → Fl L := fun ω k => x k ω
  have hp : Measurable p := measurable_pi_iff.2 fun k => measurable_to_countable' fun v => (hx k).1 v
  have hf : Function.FactorsThrough Y p := fun ω ω' h => hY ω ω' fun k hk => congrFun h ⟨k, by omega⟩
  let G : (Fin (n + 1) → Fl L) → ℝ := Function.extend p Y 0
  have hG : ∀ ω, Y ω = G (p ω) := fun ω => (hf.extend_apply 0 ω).symm
  have hm : Measurable Y := by
    rw [show Y = G ∘ p from funext hG]
    exact (Measurable.of_discrete (f := G)).comp hp
  obtain ⟨C, hC⟩ := (Set.finite_range fun v => |G v|).bddAbove
  exact Integrable.of_bound hm.aestronglyMeasurable C (.of_forall fun ω => by rw [hG, Real.norm_eq_abs]; exact hC ⟨_, rfl⟩)

theorem mean_abs_le_rms [IsProbabilityMeasure μ] {a : Ω → ℝ} (h1 : Integrable (fun ω => |a ω|) μ) (h2 : Integrable (fun ω => a ω ^ 2) μ) :
    ∫ ω, |a ω| ∂μ ≤ √(∫ ω, a ω ^ 2 ∂μ) := by
  obtain ⟨m, hm⟩ : ∃ m, m = ∫ ω, |a ω| ∂μ := ⟨_, rfl⟩
  rw [← hm]
  apply Real.le_sqrt_of_sq_le
  have i1 : Integrable (fun ω => 2 * m * |a ω|) μ := h1.const_mul _
  have i2 : Integrable (fun _ : Ω => m ^ 2) μ := integrable_const _
  have i3 : Integrable (fun ω => 2 * m * |a ω| - m ^ 2) μ := i1.sub i2
  have h := integral_mono i3 h2 fun ω => by
    have := sq_nonneg (|a ω| - m)
    have := sq_abs (a ω)
    show 2 * m * |a ω| - m ^ 2 ≤ a ω ^ 2
    nlinarith
  rw [integral_sub i1 i2, integral_const_mul, ← hm, integral_const, probReal_univ, smul_eq_mul] at h
  nlinarith

section close
variable {σ τ : Type} [Processor σ (Fl L)] [Processor τ ℝ] {s : σ} {r : τ} {P G : ℝ}

/-- The exact twin on the same random samples. -/
theorem noise_twin [IsProbabilityMeasure μ] (h : Tracks (L := L) s r X E) (hx : RandomStream x X)
    (hy : ∀ ω, Responds b s (fun n => x n ω) (fun n => y n ω)) :
    ∃ z : ℕ → Ω → ℝ, (∀ ω, Responds b r (fun n => (x n ω).toReal) (fun n => z n ω)) ∧
      (∀ n ω, (y n ω).Finite ∧ |(y n ω).toReal - z n ω| ≤ E) ∧
      (∀ n ω ω', (∀ k ≤ n, x k ω = x k ω') → z n ω = z n ω' ∧ (y n ω).toReal = (y n ω').toReal) := by
  choose z hz using fun ω => h.2.1 b fun n => (x n ω).toReal
  refine ⟨fun n ω => z ω n, hz, fun n ω => h.2.2 b _ _ _ (fun n => (hx n).2 ω) (hy ω) (hz ω) n, fun n ω ω' he => ⟨?_, ?_⟩⟩
  · exact (hz ω).sofar (hz ω') n fun k hk => by rw [he k hk]
  · have := (hy ω).sofar (hy ω') n fun k hk => he k hk
    rw [this]

theorem tracks_nonneg [IsProbabilityMeasure μ] (h : Tracks (L := L) s r X E) (hx : RandomStream x X)
    (hy : ∀ ω, Responds b s (fun n => x n ω) (fun n => y n ω)) : 0 ≤ E := by
  obtain ⟨z, -, h2, -⟩ := noise_twin (μ := μ) h hx hy
  obtain ⟨ω⟩ : Nonempty Ω := nonempty_of_isProbabilityMeasure μ
  exact (abs_nonneg _).trans (h2 0 ω).2

/-- **C152.** The power of noise at the output. -/
theorem C152_power (h : Tracks (L := L) s r X E) (hG : NoisePower b r G) : NoiseLevel (L := L) b s X G E := by
  intro Ω _ μ _ P x y hx hw hy
  obtain ⟨z, h1, h2, h3⟩ := noise_twin (μ := μ) h hx hy
  have hE := tracks_nonneg (μ := μ) h hx hy
  obtain ⟨g1, g2⟩ := hG Ω _ μ P _ z hw h1
  have key : ∀ n, Integrable (fun ω => (y n ω).toReal ^ 2) μ ∧ |√(∫ ω, (y n ω).toReal ^ 2 ∂μ) - √(∫ ω, z n ω ^ 2 ∂μ)| ≤ E := fun n =>
    rms_within hE (integrable_sofar hx n fun ω ω' he => (h3 n ω ω' he).2).aestronglyMeasurable
      (integrable_sofar hx n fun ω ω' he => (h3 n ω ω' he).1).aestronglyMeasurable
      (integrable_sofar hx n fun ω ω' he => by rw [(h3 n ω ω' he).1]) fun ω => (h2 n ω).2
  refine ⟨fun n ω => (h2 n ω).1, fun n => ⟨(key n).1, ?_⟩, fun ε hε => ?_⟩
  · have := (abs_le.1 (key n).2).2
    have := Real.sqrt_le_sqrt (g1 n)
    linarith
  · have ht : Tendsto (fun n => √(∫ ω, z n ω ^ 2 ∂μ)) atTop (𝓝 √(G * P)) := (Real.continuous_sqrt.tendsto _).comp g2
    filter_upwards [(Metric.tendsto_nhds.1 ht) ε hε] with n hn
    rw [Real.dist_eq] at hn
    have := abs_sub_le √(∫ ω, (y n ω).toReal ^ 2 ∂μ) √(∫ ω, z n ω ^ 2 ∂μ) √(G * P)
    have := (key n).2
    linarith

/-- The mean of a product with something that is off by at most `E`. -/
theorem mean_product_close [IsProbabilityMeasure μ] (hE : 0 ≤ E) {a c d : Ω → ℝ} (ha : Integrable (fun ω => |a ω|) μ) (ha2 : Integrable (fun ω => a ω ^ 2) μ)
    (hac : Integrable (fun ω => a ω * c ω) μ) (had : Integrable (fun ω => a ω * d ω) μ) (h : ∀ ω, |c ω - d ω| ≤ E) :
    |∫ ω, a ω * c ω ∂μ - ∫ ω, a ω * d ω ∂μ| ≤ E * √(∫ ω, a ω ^ 2 ∂μ) := by
  rw [← integral_sub hac had]
  have i1 : Integrable (fun ω => a ω * c ω - a ω * d ω) μ := hac.sub had
  have i2 : Integrable (fun ω => E * |a ω|) μ := ha.const_mul _
  calc |∫ ω, (a ω * c ω - a ω * d ω) ∂μ| ≤ ∫ ω, |a ω * c ω - a ω * d ω| ∂μ := abs_integral_le_integral_abs
    _ ≤ ∫ ω, E * |a ω| ∂μ := integral_mono i1.abs i2 fun ω => by
        show |a ω * c ω - a ω * d ω| ≤ E * |a ω|
        rw [← mul_sub, abs_mul, mul_comm]
        exact mul_le_mul_of_nonneg_right (h ω) (abs_nonneg _)
    _ = E * ∫ ω, |a ω| ∂μ := integral_const_mul _ _
    _ ≤ _ := mul_le_mul_of_nonneg_left (mean_abs_le_rms ha ha2) hE

/-- **C152.** The correlation of output and input is the impulse response. -/
theorem C152_cross [IsProbabilityMeasure μ] {H : ℕ → ℝ} (h : Tracks (L := L) s r X E) (hH : CrossCorrelates b r H) (hx : RandomStream x X)
    (hw : WhiteNoise μ (fun n ω => (x n ω).toReal) P) (hy : ∀ ω, Responds b s (fun n => x n ω) (fun n => y n ω)) (n k : ℕ) :
    |∫ ω, (x n ω).toReal * (y (n + k) ω).toReal ∂μ - P * H k| ≤ E * √P ∧
    |∫ ω, (x (n + k + 1) ω).toReal * (y n ω).toReal ∂μ| ≤ E * √P := by
  obtain ⟨z, h1, h2, h3⟩ := noise_twin (μ := μ) h hx hy
  have hE := tracks_nonneg (μ := μ) h hx hy
  have hP : ∀ n, ∫ ω, (x n ω).toReal ^ 2 ∂μ = P := fun n => by
    have := (hw n n).2
    rw [if_pos rfl] at this
    simp only [sq]
    exact this
  have key : ∀ i j, |∫ ω, (x i ω).toReal * (y j ω).toReal ∂μ - ∫ ω, (x i ω).toReal * z j ω ∂μ| ≤ E * √P := by
    intro i j
    rw [← hP i]
    have hi : ∀ {ω ω' : Ω}, (∀ k ≤ max i j, x k ω = x k ω') → x i ω = x i ω' := fun he => he i (le_max_left _ _)
    have hj : ∀ {ω ω' : Ω}, (∀ k ≤ max i j, x k ω = x k ω') → ∀ k ≤ j, x k ω = x k ω' := fun he k hk => he k (hk.trans (le_max_right _ _))
    refine mean_product_close hE ?_ ?_ ?_ ?_ fun ω => (h2 j ω).2 <;> refine integrable_sofar hx (max i j) fun ω ω' he => ?_
    · rw [hi he]
    · rw [hi he]
    · rw [hi he, (h3 j ω ω' (hj he)).2]
    · rw [hi he, (h3 j ω ω' (hj he)).1]
  obtain ⟨c1, c2⟩ := hH Ω _ μ P _ z hw h1 n k
  have k1 := key n (n + k)
  have k2 := key (n + k + 1) n
  rw [c1] at k1
  rw [c2, sub_zero] at k2
  exact ⟨k1, k2⟩

/-- **C152.** The correlations within the output. -/
theorem C152_colour [IsProbabilityMeasure μ] {R : ℕ → ℝ} (h : Tracks (L := L) s r X E) (hG : NoisePower b r G) (hR : Colours b r R) (hx : RandomStream x X)
    (hw : WhiteNoise μ (fun n ω => (x n ω).toReal) P) (hy : ∀ ω, Responds b s (fun n => x n ω) (fun n => y n ω)) (k : ℕ) :
    ∀ ε > 0, ∀ᶠ n in atTop, |∫ ω, (y n ω).toReal * (y (n + k) ω).toReal ∂μ - P * R k| ≤ E * (2 * √(G * P) + E) + ε := by
  obtain ⟨z, h1, h2, h3⟩ := noise_twin (μ := μ) h hx hy
  have hE := tracks_nonneg (μ := μ) h hx hy
  have hz := (hG Ω _ μ P _ z hw h1).1
  have hyy := (C152_power h hG Ω _ μ ‹_› P x y hx hw hy).2.1
  intro ε hε
  filter_upwards [(Metric.tendsto_nhds.1 (hR Ω _ μ P _ z hw h1 k)) ε hε] with n hn
  rw [Real.dist_eq] at hn
  have hle : ∀ {ω ω' : Ω}, (∀ j ≤ n + k, x j ω = x j ω') → ∀ j ≤ n, x j ω = x j ω' := fun he j hj => he j (by omega)
  have q1 : |∫ ω, (y n ω).toReal * (y (n + k) ω).toReal ∂μ - ∫ ω, (y n ω).toReal * z (n + k) ω ∂μ| ≤ E * √(∫ ω, (y n ω).toReal ^ 2 ∂μ) := by
    refine mean_product_close hE ?_ ?_ ?_ ?_ fun ω => (h2 (n + k) ω).2 <;> refine integrable_sofar hx (n + k) fun ω ω' he => ?_
    · rw [(h3 n ω ω' (hle he)).2]
    · rw [(h3 n ω ω' (hle he)).2]
    · rw [(h3 n ω ω' (hle he)).2, (h3 _ ω ω' he).2]
    · rw [(h3 n ω ω' (hle he)).2, (h3 _ ω ω' he).1]
  have q2 : |∫ ω, z (n + k) ω * (y n ω).toReal ∂μ - ∫ ω, z (n + k) ω * z n ω ∂μ| ≤ E * √(∫ ω, z (n + k) ω ^ 2 ∂μ) := by
    refine mean_product_close hE ?_ ?_ ?_ ?_ fun ω => (h2 n ω).2 <;> refine integrable_sofar hx (n + k) fun ω ω' he => ?_
    · rw [(h3 _ ω ω' he).1]
    · rw [(h3 _ ω ω' he).1]
    · rw [(h3 _ ω ω' he).1, (h3 n ω ω' (hle he)).2]
    · rw [(h3 _ ω ω' he).1, (h3 n ω ω' (hle he)).1]
  have e1 : ∫ ω, z (n + k) ω * (y n ω).toReal ∂μ = ∫ ω, (y n ω).toReal * z (n + k) ω ∂μ := by simp only [mul_comm]
  have e2 : ∫ ω, z (n + k) ω * z n ω ∂μ = ∫ ω, z n ω * z (n + k) ω ∂μ := by simp only [mul_comm]
  rw [e1, e2] at q2
  have m1 := mul_le_mul_of_nonneg_left (hyy n).2 hE
  have m2 := mul_le_mul_of_nonneg_left (Real.sqrt_le_sqrt (hz (n + k))) hE
  have t1 := abs_sub_le (∫ ω, (y n ω).toReal * (y (n + k) ω).toReal ∂μ) (∫ ω, (y n ω).toReal * z (n + k) ω ∂μ) (P * R k)
  have t2 := abs_sub_le (∫ ω, (y n ω).toReal * z (n + k) ω ∂μ) (∫ ω, z n ω * z (n + k) ω ∂μ) (P * R k)
  linarith

/-- The mean of something that is off by at most `E`. -/
theorem mean_close [IsProbabilityMeasure μ] {c d : Ω → ℝ} (hc : Integrable c μ) (hd : Integrable d μ) (h : ∀ ω, |c ω - d ω| ≤ E) :
    |∫ ω, c ω ∂μ - ∫ ω, d ω ∂μ| ≤ E := by
  rw [← integral_sub hc hd]
  calc |∫ ω, (c ω - d ω) ∂μ| ≤ ∫ ω, |c ω - d ω| ∂μ := abs_integral_le_integral_abs
    _ ≤ ∫ _, E ∂μ := integral_mono (hc.sub hd).abs (integrable_const _) h
    _ = E := by rw [integral_const, probReal_univ, smul_eq_mul, one_mul]

/-- **C152.** Detectors with equal attack and release gain. -/
theorem C152_meters [IsProbabilityMeasure μ] {g M : ℝ} (hg : g < 1) (hx : RandomStream x X) :
    (∀ s : PeakEnvDetector (Fl L), s.attack_gain.Finite → s.release_gain.Finite → s.attack_gain.toReal = g → s.release_gain.toReal = g → 0 ≤ g →
      s.envelope.Within X → 2 * X ≤ 2 ^ f.emax → SteadyMean μ (fun n ω => |(x n ω).toReal|) M →
      (∀ ω, Responds b s (fun n => x n ω) (fun n => y n ω)) → ∀ n,
      |∫ ω, (y n ω).toReal ∂μ - (M + g ^ (n + 1) * (s.envelope.toReal - M))| ≤ 6 * (f.u * X + f.tiny) / (1 - g)) ∧
    (∀ s : RmsEnvDetector (Fl L), s.attack_gain.Finite → s.release_gain.Finite → s.attack_gain.toReal = g → s.release_gain.toReal = g → 0 ≤ g →
      0 ≤ X → s.envelope.Within (X ^ 2) → 0 ≤ s.envelope.toReal → 4 * (X ^ 2 + f.tiny) ≤ 2 ^ f.emax →
      SteadyMean μ (fun n ω => (x n ω).toReal ^ 2) M →
      (∀ ω, Responds b s (fun n => x n ω) (fun n => y n ω)) → ∀ n,
      |√(∫ ω, (y n ω).toReal ^ 2 ∂μ) - √(M + g ^ (n + 1) * (s.envelope.toReal - M))| ≤
        4 * √((f.u * X ^ 2 + f.tiny) / (1 - g)) + (f.u * X + f.tiny)) := by
  refine ⟨fun s fa fr ha hr h0 hm hov hM hy n => ?_, fun s fa fr ha hr h0 hX hm hm0 hov hM hy n => ?_⟩
  · have ht := C74_peak (s := s) hg ⟨fa, ha ▸ h0, ha.le⟩ ⟨fr, hr ▸ h0, hr.le⟩ hm hov
    obtain ⟨z, h1, h2, h3⟩ := noise_twin (μ := μ) ht hx hy
    have := (C149_mean (b := b) (g := g) (M := M) (μ := μ) (x := fun n ω => (x n ω).toReal) (y := z)).1 s.exact ha hr h0 hM h1 n
    rw [show s.exact.lastOut = s.envelope.toReal from rfl] at this
    rw [← this]
    exact mean_close (integrable_sofar hx n fun ω ω' he => (h3 n ω ω' he).2) (integrable_sofar hx n fun ω ω' he => (h3 n ω ω' he).1) fun ω => (h2 n ω).2
  · have ht := C74_rms (s := s) hX hg ⟨fa, ha ▸ h0, ha.le⟩ ⟨fr, hr ▸ h0, hr.le⟩ hm hm0 hov
    obtain ⟨z, h1, h2, h3⟩ := noise_twin (μ := μ) ht hx hy
    have := (C149_mean (b := b) (g := g) (M := M) (μ := μ) (x := fun n ω => (x n ω).toReal) (y := z)).2 s.exact ha hr h0 hg.le hm0 hM h1 n
    rw [show s.exact.lastOut = √s.envelope.toReal from rfl, Real.sq_sqrt hm0] at this
    rw [← this]
    exact (rms_within (tracks_nonneg (μ := μ) ht hx hy) (integrable_sofar hx n fun ω ω' he => (h3 n ω ω' he).2).aestronglyMeasurable
      (integrable_sofar hx n fun ω ω' he => (h3 n ω ω' he).1).aestronglyMeasurable
      (integrable_sofar hx n fun ω ω' he => by rw [(h3 n ω ω' he).1]) fun ω => (h2 n ω).2).2

end close

/-- **C152**, the six rbj filters without gain: the noise gains of C106 within the rounding error of C83. -/
theorem C152_rbj {k : ℝ} {sr fc q : Fl L} (hL : AccurateTrig L k) (hf : f.Roomy) (hk : 0 ≤ k) (h : Resolved k sr fc q) (hX : 0 ≤ X)
    (hr : 191808 * (X + f.tiny) ≤ rbjMargin sr.toReal fc.toReal q.toReal ^ 2 * 2 ^ f.emax) {c α : ℝ}
    (hc : c = Real.cos (angle sr.toReal fc.toReal)) (hα : α = Real.sin (angle sr.toReal fc.toReal) / (2 * q.toReal)) :
    (∀ s : LowPass (Fl L), NoiseLevel b (s.setCoefficients sr fc q) X ((1 - c) * (1 + c + 2 * α) / (4 * α * (1 + α)))
      (rbjBound f k sr.toReal fc.toReal q.toReal X)) ∧
    (∀ s : HighPass (Fl L), NoiseLevel b (s.setCoefficients sr fc q) X ((1 + c) * (1 - c + 2 * α) / (4 * α * (1 + α)))
      (rbjBound f k sr.toReal fc.toReal q.toReal X)) ∧
    (∀ s : BandPass1 (Fl L), NoiseLevel b (s.setCoefficients sr fc q) X (q.toReal ^ 2 * (α / (1 + α))) (rbjBound f k sr.toReal fc.toReal q.toReal X)) ∧
    (∀ s : BandPass2 (Fl L), NoiseLevel b (s.setCoefficients sr fc q) X (α / (1 + α)) (rbjBound f k sr.toReal fc.toReal q.toReal X)) ∧
    (∀ s : BandStop (Fl L), NoiseLevel b (s.setCoefficients sr fc q) X (1 / (1 + α)) (rbjBound f k sr.toReal fc.toReal q.toReal X)) ∧
    (∀ s : AllPass (Fl L), NoiseLevel b (s.setCoefficients sr fc q) X 1 (rbjBound f k sr.toReal fc.toReal q.toReal X)) := by
  obtain ⟨t1, t2, t3, t4, t5, t6⟩ := C83_tracks hL hf hk h hX hr
  obtain ⟨g1, g2, g3, g4, g5, g6, -⟩ := C106_rbj (db := 0) b h.valid hc hα rfl
  exact ⟨fun s => C152_power (t1 s LowPass.new) (g1 _).2, fun s => C152_power (t2 s HighPass.new) (g2 _).2,
    fun s => C152_power (t3 s BandPass1.new) (g3 _).2, fun s => C152_power (t4 s BandPass2.new) (g4 _).2,
    fun s => C152_power (t5 s BandStop.new) (g5 _).2, fun s => C152_power (t6 s AllPass.new) (g6 _).2⟩

/-- **C152** in f64: noise between -1 and 1, frequencies from 1/16 to 7/16 of the sample rate, `q` from 1/2 to 1. -/
theorem C152_f64 {L : Libm binary64} (hL : AccurateTrig L 2) {sr fc q : Fl L} (hsr : sr.Finite) (hfc : fc.Finite) (hq : q.Finite)
    (h1 : 1 ≤ sr.toReal) (h2 : sr.toReal ≤ 2 ^ 100) (h3 : sr.toReal / 16 ≤ fc.toReal) (h4 : fc.toReal ≤ 7 / 16 * sr.toReal)
    (h5 : 1 / 2 ≤ q.toReal) (h6 : q.toReal ≤ 1) {c α : ℝ}
    (hc : c = Real.cos (angle sr.toReal fc.toReal)) (hα : α = Real.sin (angle sr.toReal fc.toReal) / (2 * q.toReal)) :
    (∀ s : LowPass (Fl L), NoiseLevel b (s.setCoefficients sr fc q) 1 ((1 - c) * (1 + c + 2 * α) / (4 * α * (1 + α))) (1 / 10 ^ 7)) ∧
    (∀ s : HighPass (Fl L), NoiseLevel b (s.setCoefficients sr fc q) 1 ((1 + c) * (1 - c + 2 * α) / (4 * α * (1 + α))) (1 / 10 ^ 7)) ∧
    (∀ s : BandPass1 (Fl L), NoiseLevel b (s.setCoefficients sr fc q) 1 (q.toReal ^ 2 * (α / (1 + α))) (1 / 10 ^ 7)) ∧
    (∀ s : BandPass2 (Fl L), NoiseLevel b (s.setCoefficients sr fc q) 1 (α / (1 + α)) (1 / 10 ^ 7)) ∧
    (∀ s : BandStop (Fl L), NoiseLevel b (s.setCoefficients sr fc q) 1 (1 / (1 + α)) (1 / 10 ^ 7)) ∧
    (∀ s : AllPass (Fl L), NoiseLevel b (s.setCoefficients sr fc q) 1 1 (1 / 10 ^ 7)) := by
  have hv : ValidParams sr.toReal fc.toReal q.toReal := ⟨by linarith, by linarith, by linarith⟩
  obtain ⟨t1, t2, t3, t4, t5, t6⟩ := C83_f64 hL hsr hfc hq h1 h2 h3 h4 h5 h6
  obtain ⟨g1, g2, g3, g4, g5, g6, -⟩ := C106_rbj (db := 0) b hv hc hα rfl
  exact ⟨fun s => C152_power (t1 s LowPass.new) (g1 _).2, fun s => C152_power (t2 s HighPass.new) (g2 _).2,
    fun s => C152_power (t3 s BandPass1.new) (g3 _).2, fun s => C152_power (t4 s BandPass2.new) (g4 _).2,
    fun s => C152_power (t5 s BandStop.new) (g5 _).2, fun s => C152_power (t6 s AllPass.new) (g6 _).2⟩

/-- Fair signs as floating-point samples. -/
theorem coin_stream : RandomStream (fun i (ω : ℕ → Bool) => if ω i then (FloatOps.one : Fl L) else FloatOps.neg FloatOps.one) 1 ∧
    WhiteNoise (Measure.infinitePi fun _ : ℕ => coin) (fun i ω => (if ω i then (FloatOps.one : Fl L) else FloatOps.neg FloatOps.one).toReal) 1 := by
  have e : (fun (i : ℕ) (ω : ℕ → Bool) => (if ω i then (FloatOps.one : Fl L) else FloatOps.neg FloatOps.one).toReal) = fun i ω => if ω i then 1 else -1 := by
    funext i ω
    split
    · exact Fl.one_toReal
    · rw [Fl.neg_toReal, Fl.one_toReal]
  refine ⟨fun n => ⟨fun v => ?_, fun ω => ?_⟩, by rw [e]; exact coin_whiteNoise⟩
  · have : {ω : ℕ → Bool | (if ω n then (FloatOps.one : Fl L) else FloatOps.neg FloatOps.one) = v} =
        (fun ω : ℕ → Bool => ω n) ⁻¹' {c | (if c then (FloatOps.one : Fl L) else FloatOps.neg FloatOps.one) = v} := rfl
    rw [this]
    exact measurable_pi_apply n (MeasurableSet.of_discrete)
  · beta_reduce
    by_cases h : ω n
    · rw [if_pos h]
      exact ⟨Fl.one_finite, by rw [Fl.one_toReal, abs_one]⟩
    · rw [if_neg h]
      exact ⟨Fl.neg_finite.mpr Fl.one_finite, by rw [Fl.neg_toReal, Fl.one_toReal, abs_neg, abs_one]⟩

/-- A new peak detector in f32 on fair signs: the mean reading is 1 up to rounding. -/
example {L : Libm binary32} {y : ℕ → (ℕ → Bool) → Fl L}
    (hy : ∀ ω, Responds b (PeakEnvDetector.new : PeakEnvDetector (Fl L)) (fun i => if ω i then FloatOps.one else FloatOps.neg FloatOps.one) (fun n => y n ω)) (n : ℕ) :
    |∫ ω, (y n ω).toReal ∂(Measure.infinitePi fun _ : ℕ => coin) - 1| ≤ 6 * (binary32.u * 1 + binary32.tiny) / (1 - 0) := by
  have h := (C152_meters (f := binary32) (μ := Measure.infinitePi fun _ : ℕ => coin) (b := b) (y := y) (g := 0) (M := 1) (by norm_num) coin_stream.1).1 PeakEnvDetector.new Fl.zero_finite Fl.zero_finite
    Fl.zero_toReal Fl.zero_toReal le_rfl ⟨Fl.zero_finite, by rw [show (PeakEnvDetector.new : PeakEnvDetector (Fl L)).envelope = FloatOps.zero from rfl, Fl.zero_toReal]; norm_num⟩
    (by simp only [binary32]; norm_num) (fun n => ?_) hy n
  · rw [zero_pow (by omega), zero_mul, add_zero] at h
    exact h
  · have e : (fun ω : ℕ → Bool => |(if ω n then (FloatOps.one : Fl L) else FloatOps.neg FloatOps.one).toReal|) = fun _ => 1 := by
      funext ω
      split
      · rw [Fl.one_toReal, abs_one]
      · rw [Fl.neg_toReal, Fl.one_toReal, abs_neg, abs_one]
    beta_reduce
    rw [e]
    exact ⟨integrable_const _, by rw [integral_const, probReal_univ, smul_eq_mul, one_mul]⟩

end Rasp
