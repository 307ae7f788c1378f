import Verif.Spec.CycleLevel
import Verif.Props.LimitCycle
import Verif.Props.Meters
import Verif.Props.RoundingAnalysis
import Verif.Props.Leaky
import Verif.Props.RbjFloat

/-!
# C126: the mean and the level of the cycles that floating-point processors end in
-/

namespace Rasp
open FloatOps Filter Topology

/-! ## Averages -/

theorem average_sub (N : ℕ) (x z : ℕ → ℝ) : average N x - average N z = average N fun n => x n - z n := by
  unfold average; rw [Finset.sum_sub_distrib, sub_div]

theorem average_mono {N : ℕ} {x z : ℕ → ℝ} (h : ∀ n, x n ≤ z n) : average N x ≤ average N z :=
  div_le_div_of_nonneg_right (Finset.sum_le_sum fun n _ => h n) N.cast_nonneg

theorem average_le {N : ℕ} (hN : 0 < N) {x : ℕ → ℝ} {c : ℝ} (h : ∀ n, x n ≤ c) : average N x ≤ c := by
  have hN' : (0 : ℝ) < N := by exact_mod_cast hN
  unfold average
  rw [div_le_iff₀ hN']
  calc ∑ i ∈ Finset.range N, x i ≤ ∑ _i ∈ Finset.range N, c := Finset.sum_le_sum fun n _ => h n
    _ = c * N := by rw [Finset.sum_const, Finset.card_range, nsmul_eq_mul, mul_comm]

theorem average_close {N : ℕ} (hN : 0 < N) {x z : ℕ → ℝ} {E : ℝ} (h : ∀ n, |x n - z n| ≤ E) : |average N x - average N z| ≤ E := by
  have h1 := average_le hN (x := fun n => x n - z n) (c := E) fun n => (abs_le.1 (h n)).2
  have h2 := average_le hN (x := fun n => z n - x n) (c := E) fun n => by linarith [(abs_le.1 (h n)).1]
  rw [← average_sub] at h1 h2
  exact abs_le.2 ⟨by linarith, h1⟩

theorem Repeats.mul {N : ℕ} {α : Type} {x : ℕ → α} (h : Repeats N x) (n k : ℕ) : x (n + k * N) = x n := by
  induction k with
  | zero => simp
  | succ k ih => rw [add_mul, one_mul, ← add_assoc, h, ih]

/-- The mean over whole periods is the mean over one. -/
theorem Repeats.average {N : ℕ} {Y : ℕ → ℝ} (h : Repeats N Y) (M : ℕ) {j : ℕ} (hj : 0 < j) :
    average (j * N) (fun i => Y (M * N + i)) = average N Y := by
  have h1 : ∀ j : ℕ, ∑ i ∈ Finset.range (j * N), Y (M * N + i) = j * ∑ i ∈ Finset.range N, Y i := by
    intro j
    induction j with
    | zero => simp
    | succ j ih =>
      rw [add_mul, one_mul, Finset.sum_range_add, ih]
      have : ∀ i, Y (M * N + (j * N + i)) = Y i := fun i => by
        rw [show M * N + (j * N + i) = i + (M + j) * N by ring, h.mul]
      simp only [this]; push_cast; ring
  have hj' : (j : ℝ) ≠ 0 := by exact_mod_cast hj.ne'
  unfold Rasp.average
  rw [h1, Nat.cast_mul, mul_div_mul_left _ _ hj']

theorem average_abs_le (N : ℕ) (x : ℕ → ℝ) : average N (fun n => |x n|) ≤ rmsLevel N x := by
  refine Real.le_sqrt_of_sq_le ?_
  rcases N.eq_zero_or_pos with rfl | hN
  · simp [average]
  have hN' : (0 : ℝ) < N := by exact_mod_cast hN
  have h := sq_sum_le_card_mul_sum_sq (s := Finset.range N) (f := fun n => |x n|)
  simp only [sq_abs, Finset.card_range] at h
  unfold average
  rw [div_pow, div_le_div_iff₀ (by positivity) hN']
  nlinarith

theorem level_le {N : ℕ} (hN : 0 < N) {x z : ℕ → ℝ} {E : ℝ} (hE : 0 ≤ E) (h : ∀ n, |x n - z n| ≤ E) : rmsLevel N x ≤ rmsLevel N z + E := by
  have h0 : 0 ≤ average N fun n => z n ^ 2 := div_nonneg (Finset.sum_nonneg fun n _ => sq_nonneg _) N.cast_nonneg
  have hl : 0 ≤ rmsLevel N z := Real.sqrt_nonneg _
  refine Real.sqrt_le_iff.2 ⟨by linarith, ?_⟩
  have h1 : average N (fun n => x n ^ 2) - average N (fun n => z n ^ 2) ≤ 2 * E * rmsLevel N z + E ^ 2 := by
    have e1 : average N (fun n => 2 * E * |z n|) = 2 * E * average N fun n => |z n| := by
      unfold average; rw [← Finset.mul_sum, mul_div_assoc]
    have e2 : average N (fun n => x n ^ 2 - z n ^ 2) - average N (fun n => 2 * E * |z n|) ≤ E ^ 2 := by
      rw [average_sub]
      refine average_le hN fun n => ?_
      have hx : |x n| ≤ |z n| + E := by
        have := abs_add_le (x n - z n) (z n)
        rw [sub_add_cancel] at this
        linarith [h n]
      have := pow_le_pow_left₀ (abs_nonneg _) hx 2
      rw [sq_abs] at this
      nlinarith [sq_abs (z n)]
    rw [average_sub]
    rw [e1] at e2
    nlinarith [mul_le_mul_of_nonneg_left (average_abs_le N z) (by linarith : 0 ≤ 2 * E)]
  have h2 : rmsLevel N z ^ 2 = average N fun n => z n ^ 2 := Real.sq_sqrt h0
  nlinarith

theorem level_close {N : ℕ} (hN : 0 < N) {x z : ℕ → ℝ} {E : ℝ} (h : ∀ n, |x n - z n| ≤ E) : |rmsLevel N x - rmsLevel N z| ≤ E := by
  have hE : 0 ≤ E := (abs_nonneg _).trans (h 0)
  have h1 := level_le hN hE h
  have h2 := level_le hN hE fun n => (abs_sub_comm (z n) (x n)).le.trans (h n)
  exact abs_le.2 ⟨by linarith, by linarith⟩

theorem Repeats.rmsLevel {N : ℕ} {Y : ℕ → ℝ} (h : Repeats N Y) (M : ℕ) {j : ℕ} (hj : 0 < j) :
    rmsLevel (j * N) (fun i => Y (M * N + i)) = rmsLevel N Y := by
  have h2 : Repeats N fun n => Y n ^ 2 := fun n => by simp only [h n]
  unfold Rasp.rmsLevel
  rw [← h2.average M hj]

/-! ## Cycles -/

section
variable {f : Fmt} {L : Libm f} {σ τ : Type} [Processor σ (Fl L)] [Processor τ ℝ]

/-- The cycle has the mean and the level of the periodic signal that exact arithmetic settles into, up to the rounding bound. -/
theorem cycle_like {s : σ} {r : τ} {X E : ℝ} {C : ℕ} (h : Tracks (L := L) s r X E) (hl : LimitCycle (T := Fl L) s C) {N : ℕ} (hN : 0 < N)
    {x y : ℕ → Fl L} {Y : ℕ → ℝ} (hx : ∀ n, (x n).Within X) (hp : Repeats N x) (hY : Repeats N Y)
    (hc : ConvergesTo r (fun n => (x n).toReal) Y) {b : Build} (hy : Responds b s x y) :
    EndsInCycle C N y fun v P => |average P v - average N Y| ≤ E ∧ |rmsLevel P v - rmsLevel N Y| ≤ E := by
  obtain ⟨M, j, hj, hM, h1⟩ := C124_close h hl hN hx hp hY hc hy
  have hP : 0 < j * N := Nat.mul_pos hj hN
  have h2 : ∀ i, |valuesFrom y (M * N) i - Y (M * N + i)| ≤ E := fun i => (h1 _ (Nat.le_add_right _ _)).2.2
  refine ⟨M, j, hj, hM, fun n hn => ⟨(h1 n hn).1, (h1 n hn).2.1⟩, ?_, ?_⟩
  · rw [← hY.average M hj]; exact average_close hP h2
  · rw [← hY.rmsLevel M hj]; exact level_close hP h2

theorem EndsInCycle.imp {C N : ℕ} {y : ℕ → Fl L} {p q : (ℕ → ℝ) → ℕ → Prop} (h : EndsInCycle C N y p) (hpq : ∀ v P, p v P → q v P) :
    EndsInCycle C N y q := by
  obtain ⟨M, j, h1, h2, h3, h4⟩ := h
  exact ⟨M, j, h1, h2, h3, hpq _ _ h4⟩

/-- **C126**, the mean. A processor whose exact twin multiplies the mean of a periodic signal by `g` ends in a cycle whose mean
is that within `E`. -/
theorem C126_mean {s : σ} {r : τ} {X E g : ℝ} {C : ℕ} (h : Tracks (L := L) s r X E) (hl : LimitCycle (T := Fl L) s C)
    (hr : AverageGain r g) : CycleMean (L := L) s X C g E := by
  intro b N x y hN hx hp hy
  obtain ⟨Y, hY, hc, e⟩ := hr N (fun n => (x n).toReal) hN fun n => by simp only [hp n]
  rw [← e]
  exact (cycle_like h hl hN hx hp hY hc hy).imp fun _ _ h => h.1

/-- **C126**, the level. A processor whose exact twin multiplies the energy of a period by something from `lo²` to `hi²` ends in a
cycle whose level lies between `lo` and `hi` times that of the signal, within `E`. -/
theorem C126_level {s : σ} {r : τ} {X E lo hi : ℝ} {C : ℕ} (h : Tracks (L := L) s r X E) (hl : LimitCycle (T := Fl L) s C)
    (hr : PeriodEnergyWithin r lo hi) (hlo : 0 ≤ lo) (hhi : 0 ≤ hi) : CycleLevel (L := L) s X C lo hi E := by
  intro b N x y hN hx hp hy
  obtain ⟨Y, hY, hc, e1, e2⟩ := hr N (fun n => (x n).toReal) hN fun n => by simp only [hp n]
  have hN' : (0 : ℝ) < N := by exact_mod_cast hN
  have k1 : lo * rmsLevel N (fun n => (x n).toReal) ≤ rmsLevel N Y := by
    rw [rmsLevel, rmsLevel, ← Real.sqrt_sq hlo, ← Real.sqrt_mul (sq_nonneg _)]
    refine Real.sqrt_le_sqrt ?_
    unfold average
    rw [← mul_div_assoc]
    exact div_le_div_of_nonneg_right e1 hN'.le
  have k2 : rmsLevel N Y ≤ hi * rmsLevel N (fun n => (x n).toReal) := by
    rw [rmsLevel, rmsLevel, ← Real.sqrt_sq hhi, ← Real.sqrt_mul (sq_nonneg _)]
    refine Real.sqrt_le_sqrt ?_
    unfold average
    rw [← mul_div_assoc]
    exact div_le_div_of_nonneg_right e2 hN'.le
  refine (cycle_like h hl hN hx hp hY hc hy).imp fun _ _ h => ?_
  have := abs_le.1 h.2
  exact ⟨by linarith, by linarith⟩
end

theorem ImplementsFrom.averageGain {σ : Type} [Processor σ ℝ] {s : σ} {c0 c1 b0 b1 b2 a1 a2 : ℝ}
    (hi : ImplementsFrom s c0 c1 b0 b1 b2 a1 a2) (hs : StablePair a1 a2) {g : ℝ} (hg : g = (b0 + b1 + b2) / (1 + a1 + a2)) :
    AverageGain s g := by
  have hd : 1 + a1 + a2 ≠ 0 := by
    have h1 := hs.1; have h2 := hs.2
    rw [abs_lt] at h1 h2
    intro h; linarith
  exact (hi.filtersPeriodic hs).averageGain (hi.constant hs (by rw [hg]; field_simp))

/-- **C126**, the mean through the basic filters and the integrator in exact arithmetic. -/
theorem C126_averages :
    (∀ s : OnePole ℝ, |s.a1| < 1 → AverageGain s (s.b0 / (1 + s.a1))) ∧ (∀ s : OneZero ℝ, AverageGain s (s.b0 + s.b1)) ∧
    (∀ s : TwoPole ℝ, |s.a2| < 1 → |s.a1| < 1 + s.a2 → AverageGain s (s.b0 / (1 + s.a1 + s.a2))) ∧
    (∀ s : TwoZero ℝ, AverageGain s (s.b0 + s.b1 + s.b2)) ∧
    (∀ s : Biquad1 ℝ, |s.a2| < 1 → |s.a1| < 1 + s.a2 → AverageGain s ((s.b0 + s.b1 + s.b2) / (1 + s.a1 + s.a2))) ∧
    (∀ s : Biquad2 ℝ, |s.a2| < 1 → |s.a1| < 1 + s.a2 → AverageGain s ((s.b0 + s.b1 + s.b2) / (1 + s.a1 + s.a2))) ∧
    (∀ s : LeakyIntegrator ℝ, |s.getAlpha| < 1 → AverageGain s 1) := by
  refine ⟨fun s h => s.implementsFrom.averageGain (stablePair_one h) (by simp),
    fun s => s.implementsFrom.averageGain stablePair_zero (by simp),
    fun s h h' => s.implementsFrom.averageGain ⟨h, h'⟩ (by simp), fun s => s.implementsFrom.averageGain stablePair_zero (by simp),
    fun s h h' => s.implementsFrom.averageGain ⟨h, h'⟩ rfl, fun s h h' => s.implementsFrom.averageGain ⟨h, h'⟩ rfl, fun s h => ?_⟩
  have hi : ImplementsFrom s (-(-s.getAlpha * s.lastOut)) 0 (1 - s.getAlpha) 0 0 (-s.getAlpha) 0 := fun b x y =>
    (C48_is_onePole s b x y).trans (OnePole.implementsFrom _ b x y)
  refine hi.averageGain (stablePair_one (by rwa [abs_neg])) ?_
  have : 1 - s.getAlpha ≠ 0 := by rw [abs_lt] at h; intro h'; linarith
  rw [eq_div_iff (by simpa [sub_eq_add_neg] using this)]; ring

theorem count64 : binary64.count ^ 2 ≤ 2 ^ 128 := by
  have : binary64.count ≤ 2 ^ 64 := by decide
  calc binary64.count ^ 2 ≤ (2 ^ 64) ^ 2 := Nat.pow_le_pow_left this 2
    _ = 2 ^ 128 := by norm_num

/-- **C126**, the cookbook filters in `f64`, frequencies from 1/16 to 7/16 of the sample rate, `q` from 1/2 to 1, samples in
[-1, 1]: the mean of the cycle is that of the input, or zero. -/
theorem C126_rbj_mean {L : Libm binary64} (hL : AccurateTrig L 2) {sr fc q : Fl L} (hsr : sr.Finite) (hfc : fc.Finite) (hq : q.Finite)
    (h1 : 1 ≤ sr.toReal) (h2 : sr.toReal ≤ 2 ^ 100) (h3 : sr.toReal / 16 ≤ fc.toReal) (h4 : fc.toReal ≤ 7 / 16 * sr.toReal)
    (h5 : 1 / 2 ≤ q.toReal) (h6 : q.toReal ≤ 1) :
    (∀ s : LowPass (Fl L), CycleMean (L := L) (s.setCoefficients sr fc q) 1 (2 ^ 128) 1 (1 / 10 ^ 7)) ∧
    (∀ s : HighPass (Fl L), CycleMean (L := L) (s.setCoefficients sr fc q) 1 (2 ^ 128) 0 (1 / 10 ^ 7)) ∧
    (∀ s : BandPass1 (Fl L), CycleMean (L := L) (s.setCoefficients sr fc q) 1 (2 ^ 128) 0 (1 / 10 ^ 7)) ∧
    (∀ s : BandPass2 (Fl L), CycleMean (L := L) (s.setCoefficients sr fc q) 1 (2 ^ 128) 0 (1 / 10 ^ 7)) ∧
    (∀ s : BandStop (Fl L), CycleMean (L := L) (s.setCoefficients sr fc q) 1 (2 ^ 128) 1 (1 / 10 ^ 7)) ∧
    (∀ s : AllPass (Fl L), CycleMean (L := L) (s.setCoefficients sr fc q) 1 (2 ^ 128) 1 (1 / 10 ^ 7)) := by
  obtain ⟨t1, t2, t3, t4, t5, t6⟩ := C83_f64 hL hsr hfc hq h1 h2 h3 h4 h5 h6
  obtain ⟨l1, l2, l3, l4, l5, l6, -⟩ := C124_rbj L
  have hv : ValidParams sr.toReal fc.toReal q.toReal := ⟨by linarith, by linarith, by linarith⟩
  obtain ⟨a1, a2, a3, a4, a5, a6, -⟩ := C123_average hv
  have hc := count64
  exact ⟨fun s => C126_mean (t1 s .new) ((l1 _).mono hc) (a1 .new), fun s => C126_mean (t2 s .new) ((l2 _).mono hc) (a2 .new),
    fun s => C126_mean (t3 s .new) ((l3 _).mono hc) (a3 .new), fun s => C126_mean (t4 s .new) ((l4 _).mono hc) (a4 .new),
    fun s => C126_mean (t5 s .new) ((l5 _).mono hc) (a5 .new), fun s => C126_mean (t6 s .new) ((l6 _).mono hc) (a6 .new)⟩

/-- **C126**, the same filters: the level of the cycle. `AllPass` keeps the level of the input. -/
theorem C126_rbj_level {L : Libm binary64} (hL : AccurateTrig L 2) {sr fc q : Fl L} (hsr : sr.Finite) (hfc : fc.Finite) (hq : q.Finite)
    (h1 : 1 ≤ sr.toReal) (h2 : sr.toReal ≤ 2 ^ 100) (h3 : sr.toReal / 16 ≤ fc.toReal) (h4 : fc.toReal ≤ 7 / 16 * sr.toReal)
    (h5 : 1 / 2 ≤ q.toReal) (h6 : q.toReal ≤ 1) :
    (∀ s : LowPass (Fl L), CycleLevel (L := L) (s.setCoefficients sr fc q) 1 (2 ^ 128) 0 (resonance q.toReal) (1 / 10 ^ 7)) ∧
    (∀ s : HighPass (Fl L), CycleLevel (L := L) (s.setCoefficients sr fc q) 1 (2 ^ 128) 0 (resonance q.toReal) (1 / 10 ^ 7)) ∧
    (∀ s : BandPass1 (Fl L), CycleLevel (L := L) (s.setCoefficients sr fc q) 1 (2 ^ 128) 0 q.toReal (1 / 10 ^ 7)) ∧
    (∀ s : BandPass2 (Fl L), CycleLevel (L := L) (s.setCoefficients sr fc q) 1 (2 ^ 128) 0 1 (1 / 10 ^ 7)) ∧
    (∀ s : BandStop (Fl L), CycleLevel (L := L) (s.setCoefficients sr fc q) 1 (2 ^ 128) 0 1 (1 / 10 ^ 7)) ∧
    (∀ s : AllPass (Fl L), CycleLevel (L := L) (s.setCoefficients sr fc q) 1 (2 ^ 128) 1 1 (1 / 10 ^ 7)) := by
  obtain ⟨t1, t2, t3, t4, t5, t6⟩ := C83_f64 hL hsr hfc hq h1 h2 h3 h4 h5 h6
  obtain ⟨l1, l2, l3, l4, l5, l6, -⟩ := C124_rbj L
  have hv : ValidParams sr.toReal fc.toReal q.toReal := ⟨by linarith, by linarith, by linarith⟩
  obtain ⟨a1, a2, a3, a4, a5, a6, -⟩ := C123_energy hv
  have hc := count64
  have hr := resonance_nonneg q.toReal
  exact ⟨fun s => C126_level (t1 s .new) ((l1 _).mono hc) (a1 .new) le_rfl hr,
    fun s => C126_level (t2 s .new) ((l2 _).mono hc) (a2 .new) le_rfl hr,
    fun s => C126_level (t3 s .new) ((l3 _).mono hc) (a3 .new) le_rfl (by linarith),
    fun s => C126_level (t4 s .new) ((l4 _).mono hc) (a4 .new) le_rfl zero_le_one,
    fun s => C126_level (t5 s .new) ((l5 _).mono hc) (a5 .new) le_rfl zero_le_one,
    fun s => C126_level (t6 s .new) ((l6 _).mono hc) (a6 .new) zero_le_one zero_le_one⟩

/-! ## The meters -/

section
variable {f : Fmt} {L : Libm f}

/-- **C126**, the integrator. -/
theorem C126_leaky {s : LeakyIntegrator (Fl L)} {X : ℝ} (hα : s.alpha.Finite) (h0 : 0 ≤ s.alpha.toReal)
    (h1 : s.alpha.toReal < 1) (hm : s.y_z1.Within X) (hov : 2 * X ≤ 2 ^ f.emax) :
    CycleMean (L := L) s X f.count 1 (6 * (f.u * X + f.tiny) / (1 - s.alpha.toReal)) :=
  C126_mean (C74_leaky hα h0 h1 hm hov) ((C124_analysis L).1 s) (C126_averages.2.2.2.2.2.2 s.exact (by
    show |s.alpha.toReal| < 1
    rwa [abs_of_nonneg h0]))

/-- **C126**, the peak detector. The readings end in a cycle whose mean is at least that of `|x|` when the attack is not slower
than the release, and at most when it is not faster, within the rounding bound. -/
theorem C126_peak {s : PeakEnvDetector (Fl L)} {X g : ℝ} (hg : g < 1) (ha : s.attack_gain.Gain g) (hr : s.release_gain.Gain g)
    (hm : s.envelope.Within X) (hov : 2 * X ≤ 2 ^ f.emax) {N : ℕ} (hN : 0 < N)
    {x y : ℕ → Fl L} (hx : ∀ n, (x n).Within X) (hp : Repeats N x) {b : Build} (hy : Responds b s x y) :
    EndsInCycle f.count N y fun v P =>
      (s.attack_gain.toReal ≤ s.release_gain.toReal →
        average N (fun n => |(x n).toReal|) - 6 * (f.u * X + f.tiny) / (1 - g) ≤ average P v) ∧
      (s.release_gain.toReal ≤ s.attack_gain.toReal →
        average P v ≤ average N (fun n => |(x n).toReal|) + 6 * (f.u * X + f.tiny) / (1 - g)) := by
  have hN' : (0 : ℝ) < N := by exact_mod_cast hN
  have ht := C74_peak hg ha hr hm hov
  obtain ⟨Y, k1, k2, k3, k4, -⟩ := C110_peak_periodic (a := s.attack_gain.toReal) (r := s.release_gain.toReal)
    ⟨ha.2.1, ha.2.2.trans_lt hg⟩ ⟨hr.2.1, hr.2.2.trans_lt hg⟩ hN (x := fun n => (x n).toReal) fun n => by simp only [hp n]
  refine (cycle_like ht ((C124_analysis L).2.1 s) hN hx hp k1 ⟨ht.2.1, fun b z hz => k2 b s.exact z rfl rfl hz⟩ hy).imp
    fun _ _ h => ?_
  have := abs_le.1 h.1
  refine ⟨fun e => ?_, fun e => ?_⟩
  · have : average N (fun n => |(x n).toReal|) ≤ average N Y := div_le_div_of_nonneg_right (k3 e) hN'.le
    linarith
  · have : average N Y ≤ average N (fun n => |(x n).toReal|) := div_le_div_of_nonneg_right (k4 e) hN'.le
    linarith

/-- **C126**, the RMS detector: the same for the levels. With equal gains the level of the readings is that of the signal within
the rounding bound. -/
theorem C126_rms {s : RmsEnvDetector (Fl L)} {X g : ℝ} (hX : 0 ≤ X) (hg : g < 1) (ha : s.attack_gain.Gain g)
    (hr : s.release_gain.Gain g) (hm : s.envelope.Within (X ^ 2)) (hm0 : 0 ≤ s.envelope.toReal)
    (hov : 4 * (X ^ 2 + f.tiny) ≤ 2 ^ f.emax) {N : ℕ} (hN : 0 < N)
    {x y : ℕ → Fl L} (hx : ∀ n, (x n).Within X) (hp : Repeats N x) {b : Build} (hy : Responds b s x y) :
    EndsInCycle f.count N y fun v P =>
      (s.attack_gain.toReal ≤ s.release_gain.toReal → rmsLevel N (fun n => (x n).toReal) -
        (4 * √((f.u * X ^ 2 + f.tiny) / (1 - g)) + (f.u * X + f.tiny)) ≤ rmsLevel P v) ∧
      (s.release_gain.toReal ≤ s.attack_gain.toReal → rmsLevel P v ≤ rmsLevel N (fun n => (x n).toReal) +
        (4 * √((f.u * X ^ 2 + f.tiny) / (1 - g)) + (f.u * X + f.tiny))) := by
  have hN' : (0 : ℝ) < N := by exact_mod_cast hN
  have ht := C74_rms hX hg ha hr hm hm0 hov
  obtain ⟨Y, k1, k0, k2, k3, k4, -⟩ := C110_rms_periodic (a := s.attack_gain.toReal) (r := s.release_gain.toReal)
    ⟨ha.2.1, ha.2.2.trans_lt hg⟩ ⟨hr.2.1, hr.2.2.trans_lt hg⟩ hN (x := fun n => (x n).toReal) fun n => by simp only [hp n]
  have hc : ConvergesTo s.exact (fun n => (x n).toReal) Y := by
    refine ⟨ht.2.1, fun b z hz => ?_⟩
    have hz0 : ∀ n, 0 ≤ z n := by
      obtain ⟨e, -, -, q⟩ := rms_follows hz
      intro n; rw [q]; exact Real.sqrt_nonneg _
    have h2 := k2 b s.exact z rfl rfl hm0 hz
    have h3 : Tendsto (fun n => √|z n ^ 2 - Y n ^ 2|) atTop (𝓝 0) := by
      have := h2.abs.sqrt
      simpa using this
    refine squeeze_zero_norm (fun n => ?_) h3
    refine Real.le_sqrt_of_sq_le ?_
    rw [Real.norm_eq_abs, show z n ^ 2 - Y n ^ 2 = (z n - Y n) * (z n + Y n) by ring, abs_mul, sq,
      abs_of_nonneg (add_nonneg (hz0 n) (k0 n))]
    refine mul_le_mul_of_nonneg_left ?_ (abs_nonneg _)
    exact abs_le.2 ⟨by linarith [hz0 n, k0 n], by linarith [hz0 n, k0 n]⟩
  refine (cycle_like ht ((C124_analysis L).2.2 s) hN hx hp k1 hc hy).imp fun _ _ h => ?_
  have := abs_le.1 h.2
  refine ⟨fun e => ?_, fun e => ?_⟩
  · have : rmsLevel N (fun n => (x n).toReal) ≤ rmsLevel N Y := Real.sqrt_le_sqrt (div_le_div_of_nonneg_right (k3 e) hN'.le)
    linarith
  · have : rmsLevel N Y ≤ rmsLevel N (fun n => (x n).toReal) := Real.sqrt_le_sqrt (div_le_div_of_nonneg_right (k4 e) hN'.le)
    linarith

/-- An RMS detector in `f32` with both gains `1/2` and a signal of period 2: the level of the readings is that of the signal,
within `0.0021`. -/
example {L : Libm binary32} {s : RmsEnvDetector (Fl L)} {v : Fl L} (hv : v.Finite) (e : v.toReal = 1 / 2)
    (hs : s.attack_gain = v ∧ s.release_gain = v ∧ s.envelope = zero) (b : Build) :
    ∃ y, Responds b s (fun n => if n % 2 = 0 then v else zero) y ∧
      EndsInCycle (2 ^ 32) 2 y fun w P => |rmsLevel P w - Real.sqrt (1 / 8)| ≤ 0.0021 := by
  obtain ⟨y, hy⟩ := NeverPanics.responds (fun _ _ _ => ⟨_, _, rfl⟩ : NeverPanics (RmsEnvDetector (Fl L)) (T := Fl L)) b s
    (fun n => if n % 2 = 0 then v else zero)
  have hg : v.Gain (1 / 2) := ⟨hv, by rw [e]; norm_num, e.le⟩
  obtain ⟨M, j, h1, h2, h3, h4, h5⟩ := C126_rms (X := 1) (g := 1 / 2) zero_le_one (by norm_num) (hs.1 ▸ hg) (hs.2.1 ▸ hg)
    (by rw [hs.2.2]; exact ⟨Fl.zero_finite, by simp⟩) (by rw [hs.2.2]; simp) (by norm_num [binary32, Fmt.tiny]) two_pos
    (x := fun n => if n % 2 = 0 then v else zero) (fun n => by
      by_cases h : n % 2 = 0
      · simp only [h, if_true]; exact ⟨hv, by rw [e]; norm_num [abs_of_pos]⟩
      · simp only [h, if_false]; exact ⟨Fl.zero_finite, by simp⟩) (fun n => by simp) hy
  refine ⟨y, hy, M, j, h1, h2.trans (by rw [(C124_count L).2.2.1]; norm_num), h3, ?_⟩
  have hl : rmsLevel 2 (fun n => (if n % 2 = 0 then v else (zero : Fl L)).toReal) = Real.sqrt (1 / 8) := by
    unfold rmsLevel average
    congr 1
    simp [Finset.sum_range_succ, e]; norm_num
  rw [hl] at h4 h5
  have hE : 4 * √((binary32.u * 1 ^ 2 + binary32.tiny) / (1 - 1 / 2)) + (binary32.u * 1 + binary32.tiny) ≤ 0.0021 := by
    have : √((binary32.u * 1 ^ 2 + binary32.tiny) / (1 - 1 / 2)) ≤ 0.0005 := by
      rw [Real.sqrt_le_iff]
      refine ⟨by norm_num, ?_⟩
      simp only [Fmt.u, Fmt.tiny, binary32]; norm_num
    have : binary32.u * 1 + binary32.tiny ≤ 0.0001 := by
      simp only [Fmt.u, Fmt.tiny, binary32]; norm_num
    linarith
  have := h4 (by rw [hs.1, hs.2.1])
  have := h5 (by rw [hs.1, hs.2.1])
  exact abs_le.2 ⟨by linarith, by linarith⟩

end

/-- In exact arithmetic a square wave of period 4 with mean 3 keeps its mean through an integrator. -/
example : ∃ Y : ℕ → ℝ, Repeats 4 Y ∧ ConvergesTo (⟨1 / 2, 7⟩ : LeakyIntegrator ℝ) (fun n => if n % 4 < 2 then 5 else 1) Y ∧ average 4 Y = 3 := by
  obtain ⟨Y, h1, h2, h3⟩ := C126_averages.2.2.2.2.2.2 (⟨1 / 2, 7⟩ : LeakyIntegrator ℝ) (by
    show |(1 / 2 : ℝ)| < 1
    rw [abs_of_pos] <;> norm_num) 4 (fun n => if n % 4 < 2 then 5 else 1) (by norm_num) (fun n => by simp)
  refine ⟨Y, h1, h2, h3.trans ?_⟩
  unfold average
  simp [Finset.sum_range_succ]; norm_num

end Rasp
