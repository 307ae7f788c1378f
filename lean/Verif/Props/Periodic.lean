import Verif.Spec.Periodic
import Verif.Lemmas.Energy
import Verif.Lemmas.Response
import Verif.Props.Spectrum
import Verif.Props.GainRange
import Verif.Props.Shape
import Verif.Props.Filters
import Verif.Props.Rounding

/-!
# C123: periodic signals and offsets through the filters
-/

namespace Rasp
open FloatOps Filter Topology

/-! ## Transforms of periodic signals -/

theorem dft_next {N : ℕ} (hN : 0 < N) {v : ℕ → ℝ} (hv : Repeats N v) (k : ℤ) :
    Complex.exp (-((2 * Real.pi * k / N : ℝ) * Complex.I)) * dft N (fun i => v (i + 1)) k = dft N v k := by
  have hN' : (N : ℂ) ≠ 0 := by exact_mod_cast hN.ne'
  unfold dft
  rw [Finset.mul_sum]
  obtain ⟨F, hF⟩ : ∃ F : ℕ → ℂ, F = fun i => (v i : ℂ) * Complex.exp (-(2 * Real.pi * Complex.I * k * i / N)) := ⟨_, rfl⟩
  have e : ∀ i : ℕ, Complex.exp (-((2 * Real.pi * k / N : ℝ) * Complex.I)) *
      ((v (i + 1) : ℂ) * Complex.exp (-(2 * Real.pi * Complex.I * k * i / N))) = F (i + 1) := fun i => by
    rw [hF]
    show _ = (v (i + 1) : ℂ) * Complex.exp (-(2 * Real.pi * Complex.I * k * ((i + 1 : ℕ) : ℂ) / N))
    rw [mul_left_comm, ← Complex.exp_add]
    congr 2
    push_cast
    field_simp
    ring
  have h0 : F N = F 0 := by
    have h1 := hv 0
    rw [zero_add] at h1
    rw [hF]
    simp only [h1]
    congr 1
    rw [Complex.exp_eq_exp_iff_exists_int]
    exact ⟨-k, by push_cast; field_simp; ring⟩
  have h2 : ∑ i ∈ Finset.range N, F (i + 1) = ∑ i ∈ Finset.range N, F i := by
    have h3 := Finset.sum_range_succ F N
    rw [Finset.sum_range_succ' F N, h0] at h3
    exact add_right_cancel h3
  calc _ = ∑ i ∈ Finset.range N, F (i + 1) := Finset.sum_congr rfl fun i _ => e i
    _ = _ := by rw [h2, hF]

theorem dft_smul (N : ℕ) (c : ℝ) (v : ℕ → ℝ) (k : ℤ) : dft N (fun i => c * v i) k = c * dft N v k := by
  unfold dft
  rw [Finset.mul_sum]
  exact Finset.sum_congr rfl fun i _ => by push_cast; ring

theorem dft_sub (N : ℕ) (u v : ℕ → ℝ) (k : ℤ) : dft N (fun i => u i - v i) k = dft N u k - dft N v k := by
  unfold dft
  rw [← Finset.sum_sub_distrib]
  exact Finset.sum_congr rfl fun i _ => by push_cast; ring

/-- Parseval: the energy of the samples is that of their transform. -/
theorem dft_energy {N : ℕ} (hN : 0 < N) (v : ℕ → ℝ) :
    ∑ k ∈ Finset.range N, ‖dft N v k‖ ^ 2 = N * ∑ i ∈ Finset.range N, v i ^ 2 := by
  have hN' : (N : ℂ) ≠ 0 := by exact_mod_cast hN.ne'
  have key : ∀ k : ℕ, ((‖dft N v k‖ ^ 2 : ℝ) : ℂ) = ∑ i ∈ Finset.range N, ∑ j ∈ Finset.range N,
      (v i * v j : ℂ) * Complex.exp (-(2 * Real.pi * Complex.I * ((i : ℤ) - (j : ℤ) : ℤ) * k / N)) := fun k => by
    push_cast
    rw [← Complex.mul_conj']
    unfold dft
    rw [map_sum, Finset.sum_mul_sum]
    refine Finset.sum_congr rfl fun i _ => Finset.sum_congr rfl fun j _ => ?_
    rw [map_mul, Complex.conj_ofReal, ← Complex.exp_conj]
    have : (starRingEnd ℂ) (-(2 * Real.pi * Complex.I * ((k : ℤ) : ℂ) * j / N)) = 2 * Real.pi * Complex.I * ((k : ℤ) : ℂ) * j / N := by
      simp only [map_neg, map_div₀, map_mul, Complex.conj_I, Complex.conj_ofReal, map_natCast, map_ofNat, map_intCast]
      ring
    rw [this, mul_mul_mul_comm, ← Complex.exp_add]
    congr 2
    push_cast
    ring
  have : ((∑ k ∈ Finset.range N, ‖dft N v k‖ ^ 2 : ℝ) : ℂ) = ((N * ∑ i ∈ Finset.range N, v i ^ 2 : ℝ) : ℂ) := by
    rw [Complex.ofReal_sum, Finset.sum_congr rfl fun k _ => key k, Finset.sum_comm, Finset.mul_sum, Complex.ofReal_sum]
    refine Finset.sum_congr rfl fun i hi => ?_
    rw [Finset.sum_comm, Finset.sum_eq_single i]
    · rw [← Finset.mul_sum, sum_turns hN]
      simp only [atBin, sub_self, dvd_zero, if_true]
      push_cast
      ring
    · intro j hj hij
      rw [← Finset.mul_sum, sum_turns hN]
      have : ¬ (N : ℤ) ∣ (i : ℤ) - j := by
        intro hd
        have h1 := Finset.mem_range.mp hi
        have h2 := Finset.mem_range.mp hj
        have := Int.eq_zero_of_abs_lt_dvd hd (by rw [abs_lt]; constructor <;> omega)
        omega
      simp [atBin, this]
    · intro h; exact absurd hi h
  exact_mod_cast this

/-! ## One gain per frequency -/

theorem norm_mul_cos_add_arg (H : ℂ) (t : ℝ) : ‖H‖ * Real.cos (t + H.arg) = H.re * Real.cos t - H.im * Real.sin t := by
  rw [Real.cos_add]
  have h1 := Complex.norm_mul_cos_arg H
  have h2 := Complex.norm_mul_sin_arg H
  rw [← h1, ← h2]; ring

/-! ## The periodic solution -/

variable {σ : Type} [Processor σ ℝ] {s : σ} {c0 c1 b0 b1 b2 a1 a2 : ℝ}

theorem periodic_solution (hs : StablePair a1 a2) {N : ℕ} (hN : 0 < N) {x y : ℕ → ℝ} (hx : Repeats N x)
    (hy : SolvesDiffFrom c0 c1 b0 b1 b2 a1 a2 x y) : ∃ Y : ℕ → ℝ, Repeats N Y ∧
      ∀ n, Y (n + 2) = b0 * x (n + 2) + b1 * x (n + 1) + b2 * x n - a1 * Y (n + 1) - a2 * Y n := by
  have hx' : ∀ n k, x (n + k * N) = x n := by
    intro n k
    induction k with
    | zero => simp
    | succ k ih => rw [add_mul, one_mul, ← add_assoc, hx, ih]
  have hd : Summable fun n => |y (n + N) - y n| :=
    second_order_summable hs (v := fun n => y (n + N) - y n) (w := fun _ => 0) (fun n => by
      have e1 : n + 2 + N = n + N + 2 := by ring
      have e2 : n + 1 + N = n + N + 1 := by ring
      simp only [e1, e2]
      have f1 := hx n
      have f2 := hx (n + 1)
      have f3 := hx (n + 2)
      rw [e1] at f3
      rw [e2] at f2
      rw [hy.tail, hy.tail, f1, f2, f3]
      ring) (by simp)
  have hlim : ∀ n, ∃ l, Tendsto (fun k => y (n + k * N)) atTop (𝓝 l) := by
    intro n
    apply cauchySeq_tendsto_of_complete
    apply cauchySeq_of_summable_dist
    have : Function.Injective (fun k : ℕ => n + k * N) := fun i j h => by
      have : i * N = j * N := by simpa using h
      exact Nat.eq_of_mul_eq_mul_right hN this
    refine (hd.comp_injective this).congr fun k => ?_
    rw [Real.dist_eq, abs_sub_comm]
    show |y (n + k * N + N) - y (n + k * N)| = |y (n + (k + 1) * N) - y (n + k * N)|
    rw [show n + (k + 1) * N = n + k * N + N by ring]
  choose Y hY using hlim
  refine ⟨Y, fun n => ?_, fun n => ?_⟩
  · have h1 := (tendsto_add_atTop_iff_nat 1).mpr (hY n)
    refine tendsto_nhds_unique (hY (n + N)) (h1.congr fun k => ?_)
    congr 1
    ring
  · refine tendsto_nhds_unique (hY (n + 2)) ?_
    have h1 := (((tendsto_const_nhds (x := b0 * x (n + 2) + b1 * x (n + 1) + b2 * x n)).sub ((hY (n + 1)).const_mul a1)).sub
      ((hY n).const_mul a2))
    refine h1.congr fun k => ?_
    have e1 : n + 2 + k * N = n + k * N + 2 := by ring
    have e2 : n + 1 + k * N = n + k * N + 1 := by ring
    have f2 := hx' (n + 1) k
    have f3 := hx' (n + 2) k
    rw [e2] at f2
    rw [e1] at f3
    rw [e1, e2, hy.tail, f3, f2, hx']

theorem ImplementsFrom.filtersPeriodic (hi : ImplementsFrom s c0 c1 b0 b1 b2 a1 a2) (hs : StablePair a1 a2) : FiltersPeriodic s := by
  intro N x hN hx
  obtain ⟨y, hy⟩ := hi.total ⟨true⟩ x
  obtain ⟨Y, hY, he⟩ := periodic_solution hs hN hx ((hi _ _ _).mp hy)
  refine ⟨Y, hY, fun x' hx' => ⟨hi.total, fun b y' hy' => ?_⟩, fun k => ⟨_, hi.frequency hs _, ?_⟩⟩
  · have t2 := ((tendsto_add_atTop_iff_nat 2).mpr hx').const_mul b0
    have t1 := ((tendsto_add_atTop_iff_nat 1).mpr hx').const_mul b1
    have t := (t2.add t1).add (hx'.const_mul b2)
    simp only [mul_zero, add_zero] at t
    exact second_order_tendsto hs (fun n => by rw [((hi _ _ _).mp hy').tail, he]; ring) t
  obtain ⟨z, hz⟩ : ∃ z : ℂ, z = Complex.exp (-((2 * Real.pi * k / N : ℝ) * Complex.I)) := ⟨_, rfl⟩
  have hY1 : Repeats N fun i => Y (i + 1) := fun n => by
    show Y (n + N + 1) = _
    rw [show n + N + 1 = n + 1 + N by ring, hY]
  have hx1 : Repeats N fun i => x (i + 1) := fun n => by
    show x (n + N + 1) = _
    rw [show n + N + 1 = n + 1 + N by ring, hx]
  have y1 := dft_next hN hY k
  have y2 := dft_next hN hY1 k
  have x1 := dft_next hN hx k
  have x2 := dft_next hN hx1 k
  rw [← hz] at y1 y2 x1 x2
  have e : dft N (fun i => Y (i + 1 + 1)) k = b0 * dft N (fun i => x (i + 1 + 1)) k + b1 * dft N (fun i => x (i + 1)) k + b2 * dft N x k -
      a1 * dft N (fun i => Y (i + 1)) k - a2 * dft N Y k := by
    rw [← dft_smul, ← dft_smul, ← dft_smul, ← dft_smul, ← dft_smul, ← dft_add, ← dft_add, ← dft_sub, ← dft_sub]
    exact dft_congr (fun i _ => he i) k
  have hne := hs.poly_ne_zero (2 * Real.pi * k / N)
  rw [freqResponse_eq, div_mul_eq_mul_div, eq_div_iff hne, poly_eq, poly_eq, ← hz, Complex.ofReal_one]
  linear_combination z ^ 2 * e + (-(1 + a1 * z) : ℂ) * y1 - z * y2 + b0 * z * x2 + (b0 + b1 * z) * x1

theorem average_eq {N : ℕ} (v : ℕ → ℝ) : dft N v 0 = N * average N v := by
  unfold dft average
  rcases Nat.eq_zero_or_pos N with rfl | hN
  · simp
  · have hN' : (N : ℂ) ≠ 0 := by exact_mod_cast hN.ne'
    push_cast
    rw [mul_div_cancel₀ _ hN']
    exact Finset.sum_congr rfl fun i _ => by simp

theorem FiltersPeriodic.averageGain (h : FiltersPeriodic s) {g : ℝ} (hg : ∀ c : ℝ, ConvergesTo s (fun _ => c) (fun _ => g * c)) :
    AverageGain s g := by
  intro N u hN hu
  obtain ⟨Y, hY, hc, hH⟩ := h N u hN hu
  refine ⟨Y, hY, hc u (by simp), ?_⟩
  obtain ⟨H, hs, he⟩ := hH 0
  have h0 : SinusoidGain s (2 * Real.pi * (0 : ℤ) / N) (g : ℂ) := by
    intro A φ
    have e1 : ∀ n : ℕ, 2 * Real.pi * ((0 : ℤ) : ℝ) / N * n + φ = φ := fun n => by simp
    simp only [e1]
    convert hg (A * Real.cos φ) using 2
    have := norm_mul_cos_add_arg (g : ℂ) φ
    simp only [Complex.ofReal_re, Complex.ofReal_im, zero_mul, sub_zero] at this
    linear_combination A * this
  obtain rfl := hs.unique h0
  rw [average_eq, average_eq] at he
  have hN' : (N : ℂ) ≠ 0 := by exact_mod_cast hN.ne'
  have : (average N Y : ℂ) = (g * average N u : ℝ) := by
    push_cast
    exact mul_left_cancel₀ hN' (by linear_combination he)
  exact_mod_cast this

theorem FiltersPeriodic.energy (h : FiltersPeriodic s) {lo hi : ℝ} (h0 : 0 ≤ lo) (hg : ∀ w, GainWithin s w lo hi) :
    PeriodEnergyWithin s lo hi := by
  intro N u hN hu
  obtain ⟨Y, hY, hc, hH⟩ := h N u hN hu
  have hN' : (0 : ℝ) < N := by exact_mod_cast hN
  have key : ∀ k : ℤ, lo * ‖dft N u k‖ ≤ ‖dft N Y k‖ ∧ ‖dft N Y k‖ ≤ hi * ‖dft N u k‖ := by
    intro k
    obtain ⟨H, hs, he⟩ := hH k
    obtain ⟨g, θ, h1, h2, hgc⟩ := hg (2 * Real.pi * k / N)
    have : ‖H‖ = g := HasGain.unique ⟨norm_nonneg H, H.arg, hs⟩ ⟨h0.trans h1, θ, hgc⟩
    rw [he, norm_mul, this]
    exact ⟨mul_le_mul_of_nonneg_right h1 (norm_nonneg _), mul_le_mul_of_nonneg_right h2 (norm_nonneg _)⟩
  refine ⟨Y, hY, hc u (by simp), ?_, ?_⟩
  · have : ∑ k ∈ Finset.range N, lo ^ 2 * ‖dft N u k‖ ^ 2 ≤ ∑ k ∈ Finset.range N, ‖dft N Y k‖ ^ 2 :=
      Finset.sum_le_sum fun k _ => by
        rw [← mul_pow]
        exact pow_le_pow_left₀ (by positivity) (key k).1 2
    rw [← Finset.mul_sum, dft_energy hN, dft_energy hN] at this
    exact le_of_mul_le_mul_left (by linarith) hN'
  · have : ∑ k ∈ Finset.range N, ‖dft N Y k‖ ^ 2 ≤ ∑ k ∈ Finset.range N, hi ^ 2 * ‖dft N u k‖ ^ 2 :=
      Finset.sum_le_sum fun k _ => by
        rw [← mul_pow]
        exact pow_le_pow_left₀ (norm_nonneg _) (key k).2 2
    rw [← Finset.mul_sum, dft_energy hN, dft_energy hN] at this
    exact le_of_mul_le_mul_left (by linarith) hN'

theorem ImplementsFrom.offsetGain (hi : ImplementsFrom s c0 c1 b0 b1 b2 a1 a2) (hs : StablePair a1 a2) {g : ℝ}
    (hg : g * (1 + a1 + a2) = b0 + b1 + b2) : OffsetGain s g := by
  refine ⟨hi.total, fun b x y x' y' c hy hy' hx => ?_⟩
  rw [hi] at hy hy'
  have hx0 : Tendsto (fun n => x' n - x n - c) atTop (𝓝 0) := by simpa using hx.sub_const c
  have t2 := ((tendsto_add_atTop_iff_nat 2).mpr hx0).const_mul b0
  have t1 := ((tendsto_add_atTop_iff_nat 1).mpr hx0).const_mul b1
  have t := (t2.add t1).add (hx0.const_mul b2)
  simp only [mul_zero, add_zero] at t
  have := second_order_tendsto hs (v := fun n => y' n - y n - g * c) (fun n => by
    rw [hy'.tail, hy.tail]; linear_combination (-c) * hg) t
  simpa using this.add_const (g * c)

/-- The gain for offsets is the gain for constants. -/
theorem ImplementsFrom.offsetGain_of (hi : ImplementsFrom s c0 c1 b0 b1 b2 a1 a2) (hs : StablePair a1 a2) {g : ℝ}
    (hg : ∀ c : ℝ, ConvergesTo s (fun _ => c) (fun _ => g * c)) : OffsetGain s g := by
  have hd : 1 + a1 + a2 ≠ 0 := by
    have h1 := hs.1; have h2 := hs.2
    rw [abs_lt] at h1 h2
    intro h; linarith
  have h1 := hi.constant hs (g := (b0 + b1 + b2) / (1 + a1 + a2)) (by field_simp) 1
  obtain ⟨y, hy⟩ := hi.total ⟨true⟩ (fun _ => 1)
  have h2 := ((hg 1).2 _ _ hy).sub (h1.2 _ _ hy)
  have h3 : g = (b0 + b1 + b2) / (1 + a1 + a2) := by
    have := tendsto_nhds_unique (h2.congr fun n => by ring : Tendsto (fun _ => (b0 + b1 + b2) / (1 + a1 + a2) - g) atTop _) tendsto_const_nhds
    linarith
  exact hi.offsetGain hs (by rw [h3]; field_simp)

/-! ## C123 -/

/-- **C123.** The six basic filters, in any state. -/
theorem C123_periodic :
    (∀ s : OnePole ℝ, |s.a1| < 1 → FiltersPeriodic s) ∧ (∀ s : OneZero ℝ, FiltersPeriodic s) ∧
    (∀ s : TwoPole ℝ, |s.a2| < 1 → |s.a1| < 1 + s.a2 → FiltersPeriodic s) ∧ (∀ s : TwoZero ℝ, FiltersPeriodic s) ∧
    (∀ s : Biquad1 ℝ, |s.a2| < 1 → |s.a1| < 1 + s.a2 → FiltersPeriodic s) ∧
    (∀ s : Biquad2 ℝ, |s.a2| < 1 → |s.a1| < 1 + s.a2 → FiltersPeriodic s) :=
  ⟨fun s h => s.implementsFrom.filtersPeriodic (stablePair_one h), fun s => s.implementsFrom.filtersPeriodic stablePair_zero,
   fun s h h' => s.implementsFrom.filtersPeriodic ⟨h, h'⟩, fun s => s.implementsFrom.filtersPeriodic stablePair_zero,
   fun s h h' => s.implementsFrom.filtersPeriodic ⟨h, h'⟩, fun s h h' => s.implementsFrom.filtersPeriodic ⟨h, h'⟩⟩

/-- **C123**, the rbj filters. -/
theorem C123_rbj {sr f q : ℝ} (h : ValidParams sr f q) :
    (∀ s : LowPass ℝ, FiltersPeriodic (s.setCoefficients sr f q)) ∧ (∀ s : HighPass ℝ, FiltersPeriodic (s.setCoefficients sr f q)) ∧
    (∀ s : BandPass1 ℝ, FiltersPeriodic (s.setCoefficients sr f q)) ∧ (∀ s : BandPass2 ℝ, FiltersPeriodic (s.setCoefficients sr f q)) ∧
    (∀ s : BandStop ℝ, FiltersPeriodic (s.setCoefficients sr f q)) ∧ (∀ s : AllPass ℝ, FiltersPeriodic (s.setCoefficients sr f q)) ∧
    (∀ (s : Peak ℝ) (db : ℝ), FiltersPeriodic (s.setCoefficients sr f db q)) :=
  ⟨fun s => (s.implements sr f q).from.filtersPeriodic h.stableQ, fun s => (s.implements sr f q).from.filtersPeriodic h.stableQ,
   fun s => (s.implements sr f q).from.filtersPeriodic h.stableQ, fun s => (s.implements sr f q).from.filtersPeriodic h.stableQ,
   fun s => (s.implements sr f q).from.filtersPeriodic h.stableQ, fun s => (s.implements sr f q).from.filtersPeriodic h.stableQ,
   fun s db => (s.implements sr f db q).from.filtersPeriodic (h.stablePeak db)⟩

/-- **C123**, the shelves. -/
theorem C123_shelves {sr f S : ℝ} (h : ValidShelf sr f S) (db : ℝ) :
    (∀ s : LowShelf ℝ, FiltersPeriodic (s.setCoefficients sr f db S)) ∧
    (∀ s : HighShelf ℝ, FiltersPeriodic (s.setCoefficients sr f db S)) :=
  ⟨fun s => (s.implements sr f db S).from.filtersPeriodic (h.stableLow db),
   fun s => (s.implements sr f db S).from.filtersPeriodic (h.stableHigh db)⟩

/-- **C123**, the mean over a period: kept, removed, or multiplied by the shelf's gain. -/
theorem C123_average {sr f q : ℝ} (h : ValidParams sr f q) :
    (∀ s : LowPass ℝ, AverageGain (s.setCoefficients sr f q) 1) ∧ (∀ s : HighPass ℝ, AverageGain (s.setCoefficients sr f q) 0) ∧
    (∀ s : BandPass1 ℝ, AverageGain (s.setCoefficients sr f q) 0) ∧ (∀ s : BandPass2 ℝ, AverageGain (s.setCoefficients sr f q) 0) ∧
    (∀ s : BandStop ℝ, AverageGain (s.setCoefficients sr f q) 1) ∧ (∀ s : AllPass ℝ, AverageGain (s.setCoefficients sr f q) 1) ∧
    (∀ (s : Peak ℝ) (db : ℝ), AverageGain (s.setCoefficients sr f db q) 1) ∧
    (∀ S db : ℝ, ValidShelf sr f S → (∀ s : LowShelf ℝ, AverageGain (s.setCoefficients sr f db S) (dbFactor db)) ∧
      ∀ s : HighShelf ℝ, AverageGain (s.setCoefficients sr f db S) 1) := by
  obtain ⟨p1, p2, p3, p4, p5, p6, p7⟩ := C123_rbj h
  obtain ⟨e1, e2, e3, e4, e5, e6, e7⟩ := C39_end_gains h
  exact ⟨fun s => (p1 s).averageGain (e1 s).1, fun s => (p2 s).averageGain (e2 s).1, fun s => (p3 s).averageGain (e3 s).1,
    fun s => (p4 s).averageGain (e4 s).1, fun s => (p5 s).averageGain (e5 s).1, fun s => (p6 s).averageGain (e6 s).1,
    fun s db => (p7 s db).averageGain (e7 s db).1, fun S db hS =>
      ⟨fun s => ((C123_shelves hS db).1 s).averageGain ((C39_shelf_end_gains hS db).1 s).1,
       fun s => ((C123_shelves hS db).2 s).averageGain ((C39_shelf_end_gains hS db).2 s).1⟩⟩

/-- **C123**, the energy of a period. `AllPass` keeps it. -/
theorem C123_energy {sr f q : ℝ} (h : ValidParams sr f q) :
    (∀ s : LowPass ℝ, PeriodEnergyWithin (s.setCoefficients sr f q) 0 (resonance q)) ∧
    (∀ s : HighPass ℝ, PeriodEnergyWithin (s.setCoefficients sr f q) 0 (resonance q)) ∧
    (∀ s : BandPass1 ℝ, PeriodEnergyWithin (s.setCoefficients sr f q) 0 q) ∧
    (∀ s : BandPass2 ℝ, PeriodEnergyWithin (s.setCoefficients sr f q) 0 1) ∧
    (∀ s : BandStop ℝ, PeriodEnergyWithin (s.setCoefficients sr f q) 0 1) ∧
    (∀ s : AllPass ℝ, PeriodEnergyWithin (s.setCoefficients sr f q) 1 1) ∧
    (∀ (s : Peak ℝ) (db : ℝ), PeriodEnergyWithin (s.setCoefficients sr f db q) (min 1 (dbFactor db)) (max 1 (dbFactor db))) := by
  obtain ⟨p1, p2, p3, p4, p5, p6, p7⟩ := C123_rbj h
  have g := C71_gain_range h
  exact ⟨fun s => (p1 s).energy le_rfl fun w => (g w).1 s, fun s => (p2 s).energy le_rfl fun w => (g w).2.1 s,
    fun s => (p3 s).energy le_rfl fun w => (g w).2.2.1 s, fun s => (p4 s).energy le_rfl fun w => (g w).2.2.2.1 s,
    fun s => (p5 s).energy le_rfl fun w => (g w).2.2.2.2.1 s, fun s => (p6 s).energy zero_le_one fun w => (g w).2.2.2.2.2.1 s,
    fun s db => (p7 s db).energy (le_min zero_le_one (by unfold dbFactor; positivity)) fun w => (g w).2.2.2.2.2.2 s db⟩

/-- **C123**, the energy of a period through the shelves. -/
theorem C123_shelf_energy {sr f S : ℝ} (h : ValidShelf sr f S) (db : ℝ) :
    (∀ s : LowShelf ℝ, PeriodEnergyWithin (s.setCoefficients sr f db S) (min 1 (dbFactor db)) (max 1 (dbFactor db))) ∧
    (∀ s : HighShelf ℝ, PeriodEnergyWithin (s.setCoefficients sr f db S) (min 1 (dbFactor db)) (max 1 (dbFactor db))) :=
  ⟨fun s => ((C123_shelves h db).1 s).energy (le_min zero_le_one (by unfold dbFactor; positivity)) fun w => (C71_shelf_gain_range h w db).1 s,
   fun s => ((C123_shelves h db).2 s).energy (le_min zero_le_one (by unfold dbFactor; positivity)) fun w => (C71_shelf_gain_range h w db).2 s⟩

/-- **C123**, offsets. Any signal, however large: `HighPass` and the band-passes remove an offset, the others keep it
(`LowShelf` multiplies it by its gain). -/
theorem C123_offset {sr f q : ℝ} (h : ValidParams sr f q) :
    (∀ s : LowPass ℝ, OffsetGain (s.setCoefficients sr f q) 1) ∧ (∀ s : HighPass ℝ, OffsetGain (s.setCoefficients sr f q) 0) ∧
    (∀ s : BandPass1 ℝ, OffsetGain (s.setCoefficients sr f q) 0) ∧ (∀ s : BandPass2 ℝ, OffsetGain (s.setCoefficients sr f q) 0) ∧
    (∀ s : BandStop ℝ, OffsetGain (s.setCoefficients sr f q) 1) ∧ (∀ s : AllPass ℝ, OffsetGain (s.setCoefficients sr f q) 1) ∧
    (∀ (s : Peak ℝ) (db : ℝ), OffsetGain (s.setCoefficients sr f db q) 1) ∧
    (∀ S db : ℝ, ValidShelf sr f S → (∀ s : LowShelf ℝ, OffsetGain (s.setCoefficients sr f db S) (dbFactor db)) ∧
      ∀ s : HighShelf ℝ, OffsetGain (s.setCoefficients sr f db S) 1) := by
  obtain ⟨e1, e2, e3, e4, e5, e6, e7⟩ := C39_end_gains h
  exact ⟨fun s => (s.implements sr f q).from.offsetGain_of h.stableQ (e1 s).1,
    fun s => (s.implements sr f q).from.offsetGain_of h.stableQ (e2 s).1,
    fun s => (s.implements sr f q).from.offsetGain_of h.stableQ (e3 s).1,
    fun s => (s.implements sr f q).from.offsetGain_of h.stableQ (e4 s).1,
    fun s => (s.implements sr f q).from.offsetGain_of h.stableQ (e5 s).1,
    fun s => (s.implements sr f q).from.offsetGain_of h.stableQ (e6 s).1,
    fun s db => (s.implements sr f db q).from.offsetGain_of (h.stablePeak db) (e7 s db).1, fun S db hS =>
      ⟨fun s => (s.implements sr f db S).from.offsetGain_of (hS.stableLow db) ((C39_shelf_end_gains hS db).1 s).1,
       fun s => (s.implements sr f db S).from.offsetGain_of (hS.stableHigh db) ((C39_shelf_end_gains hS db).2 s).1⟩⟩

/-- **C123**, offsets through the basic filters, in any state. -/
theorem C123_basic_offset :
    (∀ s : OnePole ℝ, |s.a1| < 1 → OffsetGain s (s.b0 / (1 + s.a1))) ∧ (∀ s : OneZero ℝ, OffsetGain s (s.b0 + s.b1)) ∧
    (∀ s : TwoPole ℝ, |s.a2| < 1 → |s.a1| < 1 + s.a2 → OffsetGain s (s.b0 / (1 + s.a1 + s.a2))) ∧
    (∀ s : TwoZero ℝ, OffsetGain s (s.b0 + s.b1 + s.b2)) ∧
    (∀ s : Biquad1 ℝ, |s.a2| < 1 → |s.a1| < 1 + s.a2 → OffsetGain s ((s.b0 + s.b1 + s.b2) / (1 + s.a1 + s.a2))) ∧
    (∀ s : Biquad2 ℝ, |s.a2| < 1 → |s.a1| < 1 + s.a2 → OffsetGain s ((s.b0 + s.b1 + s.b2) / (1 + s.a1 + s.a2))) := by
  have hd : ∀ {a1 a2 : ℝ}, |a2| < 1 → |a1| < 1 + a2 → 1 + a1 + a2 ≠ 0 := fun {a1 a2} h1 h2 => by
    rw [abs_lt] at h1 h2
    intro h; linarith
  refine ⟨fun s h => s.implementsFrom.offsetGain (stablePair_one h) ?_, fun s => s.implementsFrom.offsetGain stablePair_zero ?_,
   fun s h h' => s.implementsFrom.offsetGain ⟨h, h'⟩ ?_, fun s => s.implementsFrom.offsetGain stablePair_zero ?_,
   fun s h h' => s.implementsFrom.offsetGain ⟨h, h'⟩ ?_, fun s h h' => s.implementsFrom.offsetGain ⟨h, h'⟩ ?_⟩
  · have : 1 + s.a1 ≠ 0 := by rw [abs_lt] at h; intro h'; linarith
    field_simp; ring
  · ring
  · have := hd h h'; field_simp; ring
  · ring
  · have := hd h h'; field_simp
  · have := hd h h'; field_simp

/-- A square wave of period 4 with mean 3, at 44.1 kHz through a high-pass filter: in the long run the mean is gone. -/
example : ∃ Y : ℕ → ℝ, Repeats 4 Y ∧ average 4 Y = 0 ∧
    ConvergesTo ((HighPass.new : HighPass ℝ).setCoefficients 44100 1000 1) (fun n => if n % 4 < 2 then 5 else 1) Y := by
  have hv : ValidParams 44100 1000 1 := by unfold ValidParams; norm_num
  obtain ⟨Y, h1, h2, h3⟩ := (C123_average hv).2.1 HighPass.new 4 (fun n => if n % 4 < 2 then 5 else 1) (by norm_num)
    (fun n => by simp)
  exact ⟨Y, h1, by rw [h3, zero_mul], h2⟩

/-! ## In floating point -/

section
variable {f : Fmt} {L : Libm f} {σ τ : Type} [Processor σ (Fl L)] [Processor τ ℝ]

/-- **C123**, in floating point: a filter that tracks its exact counterpart (C73, C83) to within `E` ends up within every
distance above `E` of the periodic signal that the exact one settles into. -/
theorem C123_float {s : σ} {r : τ} {X E : ℝ} (h : Tracks (L := L) s r X E) (hr : FiltersPeriodic r) {N : ℕ} (hN : 0 < N)
    {x : ℕ → Fl L} (hx : ∀ n, (x n).Within X) (hp : Repeats N x) :
    ∃ Y : ℕ → ℝ, Repeats N Y ∧ ConvergesTo r (fun n => (x n).toReal) Y ∧ ∀ b, ∃ y, Responds b s x y ∧
      ∀ ε, 0 < ε → ∃ M, ∀ n, M ≤ n → (y n).Finite ∧ |(y n).toReal - Y n| ≤ E + ε := by
  obtain ⟨Y, hY, hc, -⟩ := hr N (fun n => (x n).toReal) hN fun n => by simp only [hp n]
  have hc := hc (fun n => (x n).toReal) (by simp)
  refine ⟨Y, hY, hc, fun b => ?_⟩
  obtain ⟨y, hy⟩ := h.1 b x
  obtain ⟨z, hz⟩ := h.2.1 b (fun n => (x n).toReal)
  refine ⟨y, hy, fun ε hε => ?_⟩
  obtain ⟨M, hM⟩ := Metric.tendsto_atTop.mp (hc.2 b z hz) ε hε
  refine ⟨M, fun n hn => ⟨(h.2.2 b x y z hx hy hz n).1, ?_⟩⟩
  have h1 := (h.2.2 b x y z hx hy hz n).2
  have h2 := hM n hn
  rw [Real.dist_eq, sub_zero] at h2
  calc |(y n).toReal - Y n| = |((y n).toReal - z n) + (z n - Y n)| := by congr 1; ring
    _ ≤ _ := (abs_add_le _ _).trans (by linarith)

/-- **C123**, offsets in floating point: two streams that differ by something approaching `c` end up with outputs that
differ by `g * c`, to within twice the rounding error and anything more. -/
theorem C123_offset_float {s : σ} {r : τ} {X E g c : ℝ} (h : Tracks (L := L) s r X E) (hr : OffsetGain r g)
    {x x' y y' : ℕ → Fl L} (hx : ∀ n, (x n).Within X) (hx' : ∀ n, (x' n).Within X)
    (hc : Tendsto (fun n => (x' n).toReal - (x n).toReal) atTop (𝓝 c)) {b : Build} (hy : Responds b s x y)
    (hy' : Responds b s x' y') {ε : ℝ} (hε : 0 < ε) : ∃ M, ∀ n, M ≤ n → |(y' n).toReal - (y n).toReal - g * c| ≤ 2 * E + ε := by
  obtain ⟨z, hz⟩ := h.2.1 b (fun n => (x n).toReal)
  obtain ⟨z', hz'⟩ := h.2.1 b (fun n => (x' n).toReal)
  obtain ⟨M, hM⟩ := Metric.tendsto_atTop.mp (hr.2 b _ z _ z' c hz hz' hc) ε hε
  refine ⟨M, fun n hn => ?_⟩
  have h1 := (h.2.2 b x y z hx hy hz n).2
  have h1' := (h.2.2 b x' y' z' hx' hy' hz' n).2
  have h2 := hM n hn
  rw [Real.dist_eq] at h2
  calc |(y' n).toReal - (y n).toReal - g * c| = |((y' n).toReal - z' n) + (-((y n).toReal - z n)) + (z' n - z n - g * c)| := by
        congr 1; ring
    _ ≤ _ := (abs_add_three _ _ _).trans (by rw [abs_neg]; linarith)

/-- With C73, a one-pole filter in `f32` whose coefficients are 1/2 and -1/2, fed `1, 0, 1, 0, …`: the output ends up close to a signal
of period 2. -/
example {L : Libm binary32} {s : OnePole (Fl L)} (ht : Tracks s s.exact 1 (1793 * 2 ^ (-24 : ℤ))) (e1 : s.a1.toReal = -(1 / 2)) :
    ∃ Y : ℕ → ℝ, Repeats 2 Y ∧ ∀ b, ∃ y, Responds b s (fun n => if n % 2 = 0 then one else zero : ℕ → Fl L) y ∧
      ∃ M, ∀ n, M ≤ n → |(y n).toReal - Y n| ≤ 1793 * 2 ^ (-24 : ℤ) + 2 ^ (-24 : ℤ) := by
  obtain ⟨Y, h1, -, h3⟩ := C123_float ht (C123_periodic.1 s.exact (by
    show |s.a1.toReal| < 1
    rw [e1]; norm_num)) (N := 2) (by norm_num) (x := fun n => if n % 2 = 0 then one else zero)
    (fun n => by
      show (if n % 2 = 0 then (one : Fl L) else zero).Within 1
      split_ifs
      · exact ⟨Fl.one_finite, by simp⟩
      · exact ⟨Fl.zero_finite, by simp⟩)
    (fun n => by simp)
  refine ⟨Y, h1, fun b => ?_⟩
  obtain ⟨y, hy, hM⟩ := h3 b
  obtain ⟨M, hM⟩ := hM (2 ^ (-24 : ℤ)) (by positivity)
  exact ⟨y, hy, M, fun n hn => (hM n hn).2⟩
end

end Rasp
