import Verif.Props.LobesFloat
import Verif.Props.Reading

/-!
# C150: reading levels off the spectrum of a windowed signal in floating point
-/

namespace Rasp
open FloatOps Fl MeasureTheory
variable {f : Fmt} {L : Libm f} {k : ℝ} {b : Build}

/-- Samples near `z`, windowed in floating point, are near `z` windowed exactly. -/
theorem windowed_close [Target] (hf : f.Ordinary) (hL : AccurateCos L k) (hk0 : 0 ≤ k) (hk : (k + 120) * f.u ≤ 1 / 8) {kind : WindowKind}
    {n : ℕ} (h2 : 2 ≤ n) (hn : n < usizeMod) {o' : ℕ → Option ℝ} (h' : Yields b kind n o') {z : ℕ → ℝ} {B η : ℝ} (hB : ∀ i < n, |z i| ≤ B)
    (hA : B + η ≤ 2 ^ (f.emax - 1)) {xs : List (Fl L)} (hl : xs.length = n)
    (hx : ∀ i (hi : i < xs.length), xs[i].Finite ∧ |xs[i].toReal - z i| ≤ η) :
    ∃ ys, applyWindow b xs (.shaped kind) = .ok ys ∧ ys.length = n ∧ (∀ y ∈ ys, y.Finite) ∧
      ∀ i < n, |(ys[i]?.map Fl.toReal).getD 0 - items o' i * z i| ≤ (k + 52) * f.u * (B + η) + f.tiny + η := by
  subst hl
  have hη : 0 ≤ η := (abs_nonneg _).trans (hx 0 (by omega)).2
  have hu := f.u_pos
  have hlev : ∀ i (hi : i < xs.length), |xs[i].toReal| ≤ B + η := fun i hi => by
    have e1 := (hx i hi).2
    have e2 := hB i hi
    have e3 := abs_sub_abs_le_abs_sub xs[i].toReal (z i)
    linarith
  obtain ⟨ys, g1, g2, g3⟩ := C97_apply hf hL hk0 hk b kind xs (by omega) (by omega) (fun x hx' => by
    obtain ⟨i, hi, rfl⟩ := List.mem_iff_getElem.mp hx'
    exact ⟨(hx i hi).1, (hlev i hi).trans hA⟩)
  refine ⟨ys, g1, g2, fun y hy => ?_, fun i hi => ?_⟩
  · obtain ⟨i, hi, rfl⟩ := List.mem_iff_getElem.mp hy
    obtain ⟨y, q1, q2, -⟩ := g3 i (by omega)
    rw [List.getElem?_eq_getElem hi] at q1
    exact Option.some.inj q1 ▸ q2
  · obtain ⟨y, q1, -, q3⟩ := g3 i (by omega)
    rw [q1, items_eq hn h' hi]
    simp only [Option.map_some, Option.getD_some]
    have s1 := abs_shape_le (kind := kind) h2 hi
    have s2 := (hx i (by omega)).2
    have s3 := hlev i (by omega)
    have s4 : |shape kind xs.length i * xs[i].toReal - shape kind xs.length i * z i| ≤ η := by
      rw [← mul_sub, abs_mul]
      exact (mul_le_of_le_one_left (abs_nonneg _) s1).trans s2
    have s5 : (k + 52) * f.u * |xs[i].toReal| ≤ (k + 52) * f.u * (B + η) := mul_le_mul_of_nonneg_left s3 (by positivity)
    have s6 := abs_sub_le y.toReal (shape kind xs.length i * xs[i].toReal) (shape kind xs.length i * z i)
    show |y.toReal - shape kind xs.length i * z i| ≤ _
    linarith

/-- `apply_window` in exact arithmetic, sample by sample. -/
theorem windowed_exact [Target] {kind : WindowKind} {n : ℕ} (hn : n < usizeMod) {o' : ℕ → Option ℝ} (h' : Yields b kind n o') {z : ℕ → ℝ}
    {zs : List ℝ} (hl : zs.length = n) (hz : ∀ i < n, zs[i]? = some (z i)) :
    ∃ ws, applyWindow b zs (.shaped kind) = .ok ws ∧ ∀ i < n, ws[i]?.getD 0 = items o' i * z i := by
  obtain ⟨ys, e1, -, e3⟩ := C57_pointwise b kind zs (by rw [hl]; exact hn) o' (by rw [hl]; exact h')
  refine ⟨ys, e1, fun i hi => ?_⟩
  obtain ⟨g, g1, g2⟩ := e3 i (by rw [hl]; exact hi)
  have := hz i hi
  rw [List.getElem?_eq_getElem (by rw [hl]; exact hi)] at this
  rw [g2, items, g1, Option.some.inj this]
  rfl

/-- **C150.** The spectrum of any signal through `apply_window`: floating point against exact arithmetic, at every frequency. -/
theorem C150_spectrum [Target] (hf : f.Ordinary) (hL : AccurateCos L k) (hk0 : 0 ≤ k) (hk : (k + 120) * f.u ≤ 1 / 8) {kind : WindowKind}
    {n : ℕ} (h2 : 2 ≤ n) (hn : n < usizeMod) {z : ℕ → ℝ} {B η : ℝ} (hB : ∀ i < n, |z i| ≤ B) (hA : B + η ≤ 2 ^ (f.emax - 1))
    {xs : List (Fl L)} (hl : xs.length = n) (hx : ∀ i (hi : i < xs.length), xs[i].Finite ∧ |xs[i].toReal - z i| ≤ η)
    {zs : List ℝ} (hl' : zs.length = n) (hz : ∀ i < n, zs[i]? = some (z i)) :
    ∃ ys ws, applyWindow b xs (.shaped kind) = .ok ys ∧ applyWindow b zs (.shaped kind) = .ok ws ∧ (∀ y ∈ ys, y.Finite) ∧
      ∀ θ, ‖dtft n (fun i => (ys[i]?.map Fl.toReal).getD 0) θ - dtft n (fun i => ws[i]?.getD 0) θ‖ ≤ n * ((k + 52) * f.u * (B + η) + f.tiny + η) := by
  obtain ⟨o', h'⟩ := (C55_exactly_size_items (T := ℝ) b kind n hn).1
  obtain ⟨ys, g1, -, g2, g3⟩ := windowed_close hf hL hk0 hk h2 hn h' hB hA hl hx
  obtain ⟨ws, w1, w2⟩ := windowed_exact hn h' hl' hz
  refine ⟨ys, ws, g1, w1, g2, fun θ => norm_dtft_sub_le (fun i hi => ?_) θ⟩
  rw [w2 i hi]
  exact g3 i hi

/-- **C150.** The loss half a bin from the middle, relative to the sum of the window as computed. -/
theorem C150_half_bin [Target] (hf : f.Ordinary) (hL : AccurateCos L k) (hk0 : 0 ≤ k) (hk : (k + 120) * f.u ≤ 1 / 21) {kind : WindowKind}
    {n : ℕ} (h65 : 65 ≤ n) (hn : n < usizeMod) {o : ℕ → Option (Fl L)} (h : Yields b kind n o) {θ : ℝ} (hθ : |θ| ≤ binWidth n kind / 2) :
    (halfBinLevel kind - 7 * ((k + 50) * f.u)) * ∑ i ∈ Finset.range n, floatItems o i ≤ ‖dtft n (floatItems o) θ‖ ∧
    ‖dtft n (floatItems o) θ‖ ≤ (1 + 7 * ((k + 50) * f.u)) * ∑ i ∈ Finset.range n, floatItems o i := by
  obtain ⟨o', h'⟩ := (C55_exactly_size_items (T := ℝ) b kind n hn).1
  obtain ⟨-, h2, -⟩ := lobes_all h65 hn h'
  obtain ⟨g1, g2⟩ := C145_half_bin h65 hn h' hθ
  have hc := floatItems_close hf hL hk0 (by linarith) (by omega) hn h h'
  have hu := f.u_pos
  have e2 := norm_dtft_sub_le hc θ
  have e3 : |∑ i ∈ Finset.range n, floatItems o i - ∑ i ∈ Finset.range n, items o' i| ≤ n * ((k + 50) * f.u) := by
    rw [← Finset.sum_sub_distrib]
    refine (Finset.abs_sum_le_sum_abs _ _).trans ((Finset.sum_le_sum fun i hi => hc i (Finset.mem_range.mp hi)).trans_eq ?_)
    rw [Finset.sum_const, Finset.card_range, nsmul_eq_mul]
  have e4 := norm_sub_norm_le (dtft n (floatItems o) θ) (dtft n (items o') θ)
  have e5 := norm_sub_norm_le (dtft n (items o') θ) (dtft n (floatItems o) θ)
  rw [norm_sub_rev] at e5
  have hl0 : 0 ≤ halfBinLevel kind := by cases kind <;> norm_num [halfBinLevel]
  have hl1 : halfBinLevel kind ≤ 1 := by cases kind <;> norm_num [halfBinLevel]
  have hε0 : 0 ≤ (k + 50) * f.u := by positivity
  have hε1 : (k + 50) * f.u ≤ 1 / 21 := by nlinarith
  rw [abs_le] at e3
  obtain ⟨e6, e7⟩ := e3
  generalize (k + 50) * f.u = ε at *
  generalize ∑ i ∈ Finset.range n, items o' i = S at *
  generalize ∑ i ∈ Finset.range n, floatItems o i = F at *
  generalize halfBinLevel kind = ρ at *
  generalize ‖dtft n (floatItems o) θ‖ = X at *
  generalize ‖dtft n (items o') θ‖ = Y at *
  have hn0 : (0 : ℝ) ≤ n := Nat.cast_nonneg n
  have k0 : (n : ℝ) * ε ≤ n * (1 / 21) := mul_le_mul_of_nonneg_left hε1 hn0
  have k1 : 2 * (n * ε) ≤ 7 * ε * F := by
    have : 2 * n ≤ 7 * F := by linarith
    nlinarith
  have k2 : ρ * F ≤ ρ * S + n * ε := by nlinarith [mul_nonneg hn0 hε0]
  constructor <;> nlinarith

/-- **C150.** The amplitude of a sinusoid, sampled up to `η`, read off the spectrum of the samples windowed in floating point. -/
theorem C150_sinusoid [Target] (hf : f.Ordinary) (hL : AccurateCos L k) (hk0 : 0 ≤ k) (hk : (k + 120) * f.u ≤ 1 / 8) {kind : WindowKind}
    {n : ℕ} (h65 : 65 ≤ n) (hn : n < usizeMod) {o' : ℕ → Option ℝ} (h' : Yields b kind n o') {A φ ω η : ℝ} (hA : |A| + η ≤ 2 ^ (f.emax - 1))
    {xs : List (Fl L)} (hl : xs.length = n) (hx : ∀ i (hi : i < xs.length), xs[i].Finite ∧ |xs[i].toReal - A * Real.cos (ω * i + φ)| ≤ η)
    {θ : ℝ} (h1 : |θ - ω| ≤ binWidth n kind / 2) (h2 : ∀ m : ℤ, lobeEdge n kind ≤ |θ + ω - 2 * Real.pi * m|) :
    ∃ ys, applyWindow b xs (.shaped kind) = .ok ys ∧ (∀ y ∈ ys, y.Finite) ∧
      (halfBinLevel kind - lobeLevel kind) * |A| - 6 * ((k + 52) * f.u * (|A| + η) + f.tiny + η) ≤
        2 * ‖dtft n (fun i => (ys[i]?.map Fl.toReal).getD 0) θ‖ / ∑ i ∈ Finset.range n, items o' i ∧
      2 * ‖dtft n (fun i => (ys[i]?.map Fl.toReal).getD 0) θ‖ / ∑ i ∈ Finset.range n, items o' i ≤
        (1 + lobeLevel kind) * |A| + 6 * ((k + 52) * f.u * (|A| + η) + f.tiny + η) := by
  obtain ⟨zs, hz1, hz2⟩ : ∃ zs : List ℝ, zs.length = n ∧ ∀ i < n, zs[i]? = some (A * Real.cos (ω * i + φ)) :=
    ⟨List.ofFn fun i : Fin n => A * Real.cos (ω * (i : ℕ) + φ), by simp, fun i hi => by simp [hi]⟩
  have hη : 0 ≤ η := (abs_nonneg _).trans (hx 0 (by omega)).2
  obtain ⟨ys, ws, g1, g2, g3, g4⟩ := C150_spectrum (b := b) hf hL hk0 hk (kind := kind) (show 2 ≤ n by omega) hn (z := fun i => A * Real.cos (ω * i + φ)) (B := |A|)
    (fun i _ => by rw [abs_mul]; exact mul_le_of_le_one_right (abs_nonneg _) (Real.abs_cos_le_one _)) hA hl hx hz1 hz2
  obtain ⟨ws', w1, w2, w3⟩ := C145_sinusoid h65 hn h' A φ ω hz1 hz2 h1 h2
  obtain rfl := Except.ok.inj (w1.symm.trans g2)
  obtain ⟨-, hS, -⟩ := lobes_all h65 hn h'
  have d := g4 θ
  have d1 := norm_sub_norm_le (dtft n (fun i => (ys[i]?.map Fl.toReal).getD 0) θ) (dtft n (fun i => ws'[i]?.getD 0) θ)
  have d2 := norm_sub_norm_le (dtft n (fun i => ws'[i]?.getD 0) θ) (dtft n (fun i => (ys[i]?.map Fl.toReal).getD 0) θ)
  rw [norm_sub_rev] at d2
  have hu := f.u_pos
  have ht := f.tiny_pos
  have he : 0 ≤ (k + 52) * f.u * (|A| + η) + f.tiny + η := by positivity
  refine ⟨ys, g1, g3, ?_⟩
  have hn0 : (65 : ℝ) ≤ n := by exact_mod_cast h65
  have hS0 : 0 < ∑ i ∈ Finset.range n, items o' i := lt_of_lt_of_le (by positivity) hS
  rw [le_div_iff₀ hS0] at w2 ⊢
  rw [div_le_iff₀ hS0] at w3 ⊢
  generalize (k + 52) * f.u * (|A| + η) + f.tiny + η = e at *
  generalize ∑ i ∈ Finset.range n, items o' i = S at *
  have : (n : ℝ) * e ≤ 3 * S * e := mul_le_mul_of_nonneg_right (by linarith) he
  constructor <;> nlinarith

/-! ## Noise -/

/-- Random numbers within `δ` of each other have root mean squares within `δ` of each other. -/
theorem rms_within {Ω : Type} [MeasurableSpace Ω] {μ : Measure Ω} [IsProbabilityMeasure μ] {a c : Ω → ℝ} {δ : ℝ} (hδ : 0 ≤ δ)
    (ha : AEStronglyMeasurable a μ) (hc : AEStronglyMeasurable c μ) (hi : Integrable (fun ω => c ω ^ 2) μ)
    (h : ∀ ω, |a ω - c ω| ≤ δ) : Integrable (fun ω => a ω ^ 2) μ ∧ |√(∫ ω, a ω ^ 2 ∂μ) - √(∫ ω, c ω ^ 2 ∂μ)| ≤ δ := by
  have one : ∀ {a c : Ω → ℝ}, AEStronglyMeasurable a μ → AEStronglyMeasurable c μ → Integrable (fun ω => c ω ^ 2) μ → (∀ ω, |a ω - c ω| ≤ δ) →
      Integrable (fun ω => a ω ^ 2) μ ∧ √(∫ ω, a ω ^ 2 ∂μ) ≤ √(∫ ω, c ω ^ 2 ∂μ) + δ := by
    intro a c ha hc hi h
    have ic : Integrable (fun ω => |c ω|) μ := by
      refine Integrable.mono' (g := fun ω => 1 + c ω ^ 2) ((integrable_const 1).add hi) (continuous_abs.comp_aestronglyMeasurable hc) (.of_forall fun ω => ?_)
      rw [Real.norm_eq_abs, abs_abs, ← sq_abs (c ω)]
      nlinarith [sq_nonneg (|c ω| - 1), abs_nonneg (c ω)]
    have i1 : Integrable (fun ω => 2 * δ * |c ω| + δ ^ 2) μ := (ic.const_mul _).add (integrable_const _)
    have i2 : Integrable (fun ω => c ω ^ 2 + (2 * δ * |c ω| + δ ^ 2)) μ := hi.add i1
    have le : ∀ ω, a ω ^ 2 ≤ c ω ^ 2 + (2 * δ * |c ω| + δ ^ 2) := by
      intro ω
      have := abs_sub_abs_le_abs_sub (a ω) (c ω)
      have h1 : |a ω| ≤ |c ω| + δ := by linarith [h ω]
      have h2 := pow_le_pow_left₀ (abs_nonneg _) h1 2
      rw [sq_abs] at h2
      rw [← sq_abs (c ω)]
      linarith
    have ia : Integrable (fun ω => a ω ^ 2) μ := by
      refine i2.mono' (ha.pow 2) (.of_forall fun ω => ?_)
      rw [Real.norm_eq_abs, abs_of_nonneg (sq_nonneg _)]
      exact le ω
    refine ⟨ia, Real.sqrt_le_iff.mpr ⟨by positivity, ?_⟩⟩
    have hm : ∫ ω, a ω ^ 2 ∂μ ≤ ∫ ω, c ω ^ 2 ∂μ + (2 * δ * ∫ ω, |c ω| ∂μ + δ ^ 2) := by
      have := integral_mono ia i2 le
      rw [integral_add hi i1, integral_add (ic.const_mul _) (integrable_const _), integral_const_mul] at this
      simpa using this
    have hv : (∫ ω, |c ω| ∂μ) ^ 2 ≤ ∫ ω, c ω ^ 2 ∂μ := by
      set m := ∫ ω, |c ω| ∂μ with hmdef
      have i3 : Integrable (fun ω => 2 * m * |c ω|) μ := ic.const_mul _
      have i4 : Integrable (fun ω => c ω ^ 2 - 2 * m * |c ω|) μ := hi.sub i3
      have : 0 ≤ ∫ ω, (c ω ^ 2 - 2 * m * |c ω|) + m ^ 2 ∂μ := integral_nonneg fun ω => by
        show 0 ≤ (c ω ^ 2 - 2 * m * |c ω|) + m ^ 2
        rw [← sq_abs (c ω)]
        nlinarith [sq_nonneg (|c ω| - m)]
      rw [integral_add i4 (integrable_const _), integral_sub hi i3, integral_const_mul, ← hmdef] at this
      simp at this
      nlinarith
    have hs := Real.sq_sqrt (show 0 ≤ ∫ ω, c ω ^ 2 ∂μ from integral_nonneg fun ω => sq_nonneg _)
    have hr : ∫ ω, |c ω| ∂μ ≤ √(∫ ω, c ω ^ 2 ∂μ) := Real.le_sqrt_of_sq_le hv
    nlinarith [mul_le_mul_of_nonneg_left hr hδ]
  obtain ⟨h1, h2⟩ := one ha hc hi h
  obtain ⟨-, h3⟩ := one hc ha h1 fun ω => by rw [abs_sub_comm]; exact h ω
  refine ⟨h1, abs_le.mpr ⟨by linarith, by linarith⟩⟩

/-- The spectrum of white noise, weighted by `v`. -/
theorem noise_spectrum {Ω : Type} [MeasurableSpace Ω] {μ : Measure Ω} {x : ℕ → Ω → ℝ} {P : ℝ} (hx : WhiteNoise μ x P) (n : ℕ) (v : ℕ → ℝ) (θ : ℝ) :
    Integrable (fun ω => ‖dtft n (fun i => v i * x i ω) θ‖ ^ 2) μ ∧
    ∫ ω, ‖dtft n (fun i => v i * x i ω) θ‖ ^ 2 ∂μ = P * ∑ i ∈ Finset.range n, v i ^ 2 := by
  have e : ∀ ω, ‖dtft n (fun i => v i * x i ω) θ‖ ^ 2 =
      (∑ i ∈ Finset.range n, v i * Real.cos (θ * i) * x i ω) ^ 2 + (∑ i ∈ Finset.range n, v i * Real.sin (θ * i) * x i ω) ^ 2 := by
    intro ω
    have ed : dtft n (fun i => v i * x i ω) θ =
        ∑ i ∈ Finset.range n, ((v i * x i ω : ℝ) : ℂ) * Complex.exp (((-(θ * i) : ℝ) : ℂ) * Complex.I) := by
      unfold dtft
      refine Finset.sum_congr rfl fun i hi => ?_
      congr 2
      push_cast
      ring
    rw [Complex.sq_norm, Complex.normSq_apply, ed, Complex.re_sum, Complex.im_sum, ← sq, ← sq]
    congr 1
    · congr 1
      refine Finset.sum_congr rfl fun i _ => ?_
      rw [Complex.re_ofReal_mul, Complex.exp_ofReal_mul_I_re, Real.cos_neg]
      ring
    · rw [← neg_sq, ← Finset.sum_neg_distrib]
      congr 1
      refine Finset.sum_congr rfl fun i _ => ?_
      rw [Complex.im_ofReal_mul, Complex.exp_ofReal_mul_I_im, Real.sin_neg]
      ring
  simp only [e]
  obtain ⟨i1, i2⟩ := noise_sum hx n fun i => v i * Real.cos (θ * i)
  obtain ⟨i3, i4⟩ := noise_sum hx n fun i => v i * Real.sin (θ * i)
  refine ⟨i1.add i3, ?_⟩
  rw [integral_add i1 i3, i2, i4, ← mul_add, ← Finset.sum_add_distrib]
  congr 1
  refine Finset.sum_congr rfl fun i _ => ?_
  rw [mul_pow, mul_pow, ← mul_add, Real.cos_sq_add_sin_sq, mul_one]

/-- **C150.** Bounded white noise of power `P`, sampled up to `η`, through a window in floating point: at every frequency the root mean square
of the spectrum is the root of `P` times the sum of the squares of the exact window, up to `n` times the error of a sample. -/
theorem C150_noise [Target] (hf : f.Ordinary) (hL : AccurateCos L k) (hk0 : 0 ≤ k) (hk : (k + 120) * f.u ≤ 1 / 8) {kind : WindowKind}
    {n : ℕ} (h2 : 2 ≤ n) (hn : n < usizeMod) {o' : ℕ → Option ℝ} (h' : Yields b kind n o') {Ω : Type} [MeasurableSpace Ω] {μ : Measure Ω}
    [IsProbabilityMeasure μ] {x : ℕ → Ω → ℝ} {P B η : ℝ} (hx : WhiteNoise μ x P) (hB : ∀ ω, ∀ i < n, |x i ω| ≤ B) (hA : B + η ≤ 2 ^ (f.emax - 1))
    {xs : Ω → List (Fl L)} (hm : @Measurable Ω (List (Fl L)) _ ⊤ xs) (hl : ∀ ω, (xs ω).length = n)
    (hxs : ∀ ω i (hi : i < (xs ω).length), (xs ω)[i].Finite ∧ |(xs ω)[i].toReal - x i ω| ≤ η) :
    ∃ ys : Ω → List (Fl L), (∀ ω, applyWindow b (xs ω) (.shaped kind) = .ok (ys ω) ∧ ∀ y ∈ ys ω, y.Finite) ∧ ∀ θ,
      Integrable (fun ω => ‖dtft n (fun i => ((ys ω)[i]?.map Fl.toReal).getD 0) θ‖ ^ 2) μ ∧
      |√(∫ ω, ‖dtft n (fun i => ((ys ω)[i]?.map Fl.toReal).getD 0) θ‖ ^ 2 ∂μ) - √(P * ∑ i ∈ Finset.range n, items o' i ^ 2)| ≤
        n * ((k + 52) * f.u * (B + η) + f.tiny + η) := by
  choose ys g1 g2 g3 g4 using fun ω => windowed_close hf hL hk0 hk h2 hn h' (z := fun i => x i ω) (hB ω) hA (hl ω) (hxs ω)
  refine ⟨ys, fun ω => ⟨g1 ω, g3 ω⟩, fun θ => ?_⟩
  obtain ⟨i1, i2⟩ := noise_spectrum hx n (items o') θ
  rw [← i2]
  obtain ⟨ω₀⟩ : Nonempty Ω := nonempty_of_isProbabilityMeasure μ
  have hη : 0 ≤ η := (abs_nonneg _).trans (hxs ω₀ 0 (by rw [hl]; omega)).2
  have hB0 : 0 ≤ B := (abs_nonneg _).trans (hB ω₀ 0 (by omega))
  have hu := f.u_pos
  have ht := f.tiny_pos
  refine rms_within (by positivity) ?_ ?_ i1 fun ω => (abs_norm_sub_norm_le _ _).trans (norm_dtft_sub_le (g4 ω) θ)
  · let G : List (Fl L) → ℝ := fun l => match applyWindow b l (.shaped kind) with
      | .ok ys => ‖dtft n (fun i => (ys[i]?.map Fl.toReal).getD 0) θ‖
      | .error _ => 0
    have hG : (fun ω => ‖dtft n (fun i => ((ys ω)[i]?.map Fl.toReal).getD 0) θ‖) = fun ω => G (xs ω) := by
      funext ω
      simp only [G, g1 ω]
    rw [hG]
    let _ : MeasurableSpace (List (Fl L)) := ⊤
    exact ((measurable_from_top (f := G)).comp hm).aestronglyMeasurable
  · have := Real.continuous_sqrt.comp_aestronglyMeasurable i1.aestronglyMeasurable
    refine this.congr (.of_forall fun ω => ?_)
    exact Real.sqrt_sq (norm_nonneg _)

/-- **C150** in f32 with a cosine accurate to one unit in the last place: samples of a sinusoid of amplitude 1, each rounded correctly, through
Blackman-Harris, read between 0.9078 and 1.0002. -/
theorem C150_f32 [Target] {L : Libm binary32} (hL : AccurateCos L 2) {n : ℕ} (h65 : 65 ≤ n) (hn : n < usizeMod) {o' : ℕ → Option ℝ}
    (h' : Yields b .blackmanHarris n o') {φ ω : ℝ} {xs : List (Fl L)} (hl : xs.length = n)
    (hx : ∀ i (hi : i < xs.length), xs[i].Finite ∧ |xs[i].toReal - Real.cos (ω * i + φ)| ≤ 1 / 2 ^ 24)
    {θ : ℝ} (h1 : |θ - ω| ≤ binWidth n .blackmanHarris / 2) (h2 : ∀ m : ℤ, lobeEdge n .blackmanHarris ≤ |θ + ω - 2 * Real.pi * m|) :
    ∃ ys, applyWindow b xs (.shaped .blackmanHarris) = .ok ys ∧ (∀ y ∈ ys, y.Finite) ∧
      0.9078 ≤ 2 * ‖dtft n (fun i => (ys[i]?.map Fl.toReal).getD 0) θ‖ / ∑ i ∈ Finset.range n, items o' i ∧
      2 * ‖dtft n (fun i => (ys[i]?.map Fl.toReal).getD 0) θ‖ / ∑ i ∈ Finset.range n, items o' i ≤ 1.0002 := by
  have hu : binary32.u = 1 / 2 ^ 24 := by simp [Fmt.u, binary32]
  have ht : binary32.tiny ≤ 1 / 2 ^ 24 := by
    simp only [Fmt.tiny, binary32]
    norm_num
  obtain ⟨ys, g1, g2, g3, g4⟩ := C150_sinusoid binary32_ordinary hL (by norm_num) (by rw [hu]; norm_num) h65 hn h' (A := 1) (φ := φ) (ω := ω)
    (η := 1 / 2 ^ 24) (by simp only [binary32]; norm_num) hl (by simpa only [one_mul] using hx) h1 h2
  refine ⟨ys, g1, g2, le_trans ?_ g3, g4.trans ?_⟩ <;> rw [hu] <;> simp only [halfBinLevel, lobeLevel, abs_one] <;> norm_num at ht ⊢ <;> linarith

/-! ## Concrete cases -/

/-- A quarter of the sample rate needs no rounding: 65 samples 1, 0, -1, 0, …, read at their own frequency through Blackman-Harris in f32. -/
example [Target] : ∃ (o' : ℕ → Option ℝ) (xs ys : List (Fl (Libm.roundedCos binary32))), Yields b .blackmanHarris 65 o' ∧ xs.length = 65 ∧
    (∀ i (hi : i < xs.length), xs[i].Finite ∧ xs[i].toReal = Real.cos (Real.pi / 2 * i)) ∧ applyWindow b xs (.shaped .blackmanHarris) = .ok ys ∧
    0.9078 ≤ 2 * ‖dtft 65 (fun i => (ys[i]?.map Fl.toReal).getD 0) (Real.pi / 2)‖ / ∑ i ∈ Finset.range 65, items o' i := by
  have hn : 65 < usizeMod := by unfold usizeMod usizeBits; split <;> norm_num
  obtain ⟨o', h'⟩ := (C55_exactly_size_items (T := ℝ) b .blackmanHarris 65 hn).1
  have hv : ∀ i : ℕ, ∃ v : Fl (Libm.roundedCos binary32), v.Finite ∧ v.toReal = Real.cos (Real.pi / 2 * i) := by
    intro i
    have e : Real.cos (Real.pi / 2 * i) = Real.cos (Real.pi / 2 * (i % 4 : ℕ)) := by
      conv_lhs => rw [← Nat.mod_add_div i 4]
      rw [← Real.cos_add_nat_mul_two_pi (Real.pi / 2 * (i % 4 : ℕ)) (i / 4)]
      congr 1
      push_cast
      ring
    rw [e]
    have : i % 4 < 4 := Nat.mod_lt _ (by norm_num)
    interval_cases i % 4
    · exact ⟨one, one_finite, by simp⟩
    · exact ⟨zero, zero_finite, by simp⟩
    · exact ⟨neg one, neg_finite.mpr one_finite, by rw [neg_toReal, one_toReal, show Real.pi / 2 * (2 : ℕ) = Real.pi by push_cast; ring, Real.cos_pi]⟩
    · refine ⟨zero, zero_finite, ?_⟩
      rw [zero_toReal, show Real.pi / 2 * (3 : ℕ) = Real.pi / 2 + Real.pi by push_cast; ring, Real.cos_add_pi, Real.cos_pi_div_two, neg_zero]
  choose v hv1 hv2 using hv
  have hx : ∀ i (hi : i < (List.ofFn fun i : Fin 65 => v i).length), (List.ofFn fun i : Fin 65 => v i)[i].Finite ∧
      (List.ofFn fun i : Fin 65 => v i)[i].toReal = Real.cos (Real.pi / 2 * i) := fun i hi => by
    rw [List.getElem_ofFn]; exact ⟨hv1 i, hv2 i⟩
  have hpi := Real.pi_pos
  obtain ⟨ys, e1, -, e2, -⟩ := C150_f32 (b := b) (Libm.roundedCos_accurate binary32_ordinary) (le_refl 65) hn h' (φ := 0) (ω := Real.pi / 2) (θ := Real.pi / 2)
    (xs := List.ofFn fun i : Fin 65 => v i) (by simp) (fun i hi => ⟨(hx i hi).1, by rw [(hx i hi).2, add_zero, sub_self, abs_zero]; positivity⟩)
    (by rw [sub_self, abs_zero]; simp only [binWidth]; positivity) (by
      intro m
      simp only [lobeEdge]
      rw [show Real.pi / 2 + Real.pi / 2 - 2 * Real.pi * m = Real.pi * (1 - 2 * m) by ring, abs_mul, abs_of_pos hpi]
      have : (1 : ℝ) ≤ |1 - 2 * (m : ℝ)| := by
        have : (1 : ℤ) ≤ |1 - 2 * m| := Int.one_le_abs (by omega)
        exact_mod_cast this
      push_cast
      nlinarith)
  exact ⟨o', _, ys, h', by simp, hx, e1, e2⟩

/-- Fair signs are floats: noise of power 1 through a Hann window of 64 points in f32. -/
example [Target] : ∃ xs : (ℕ → Bool) → List (Fl (Libm.roundedCos binary32)), @Measurable (ℕ → Bool) (List (Fl (Libm.roundedCos binary32))) _ ⊤ xs ∧
    (∀ ω, (xs ω).length = 64) ∧ (∀ ω i (hi : i < (xs ω).length), (xs ω)[i].Finite ∧ |(xs ω)[i].toReal - if ω i then 1 else -1| ≤ 0) ∧
    WhiteNoise (Measure.infinitePi fun _ : ℕ => coin) (fun i ω => if ω i then 1 else -1) 1 := by
  refine ⟨fun ω => List.ofFn fun i : Fin 64 => if ω i then one else neg one, ?_, by simp, fun ω i hi => ?_, coin_whiteNoise⟩
  · let _ : MeasurableSpace (List (Fl (Libm.roundedCos binary32))) := ⊤
    have h1 : Measurable fun (ω : ℕ → Bool) (i : Fin 64) => ω i := measurable_pi_lambda _ fun i => measurable_pi_apply _
    exact (measurable_of_finite fun c : Fin 64 → Bool => List.ofFn fun i => if c i then (one : Fl (Libm.roundedCos binary32)) else neg one).comp h1
  · rw [List.getElem_ofFn]
    split_ifs
    · exact ⟨one_finite, by simp⟩
    · exact ⟨neg_finite.mpr one_finite, by simp⟩

end Rasp
