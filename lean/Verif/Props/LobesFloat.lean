import Verif.Props.Sidelobes
import Verif.Props.WindowError
import Verif.Spec.LobesFloat

/-!
# C132: spectra of windows and windowed signals in floating point
-/

namespace Rasp
open FloatOps Fl
variable {f : Fmt} {L : Libm f} {k : ℝ} {b : Build}

theorem norm_dtft_sub_le {n : ℕ} {v v' : ℕ → ℝ} {ε : ℝ} (h : ∀ i < n, |v i - v' i| ≤ ε) (θ : ℝ) : ‖dtft n v θ - dtft n v' θ‖ ≤ n * ε := by
  unfold dtft
  rw [← Finset.sum_sub_distrib]
  refine (norm_sum_le _ _).trans ((Finset.sum_le_sum fun i hi => ?_).trans_eq (by rw [Finset.sum_const, Finset.card_range, nsmul_eq_mul]))
  rw [← sub_mul, norm_mul, show (-(θ * i * Complex.I) : ℂ) = ((-(θ * i) : ℝ) : ℂ) * Complex.I by push_cast; ring, Complex.norm_exp_ofReal_mul_I, mul_one,
    ← Complex.ofReal_sub, Complex.norm_real, Real.norm_eq_abs]
  exact h i (Finset.mem_range.mp hi)

/-- Each item, against the item in exact arithmetic. -/
theorem floatItems_close [Target] (hf : f.Ordinary) (hL : AccurateCos L k) (hk0 : 0 ≤ k) (hk : (k + 120) * f.u ≤ 1 / 8) {kind : WindowKind}
    {n : ℕ} (h2 : 2 ≤ n) (hn : n < usizeMod) {o : ℕ → Option (Fl L)} (h : Yields b kind n o) {o' : ℕ → Option ℝ} (h' : Yields b kind n o')
    (i : ℕ) (hi : i < n) : |floatItems o i - items o' i| ≤ (k + 50) * f.u := by
  obtain ⟨v, h3, -, h4⟩ := C97_cosine hf hL hk0 hk b kind n h2 hn o h i hi
  rw [items_eq hn h' hi, floatItems, h3]
  exact h4

/-- **C132.** At every frequency the spectrum of a window computed in floating point is within `n (k + 50)` units of `2^-precision` of the
spectrum of the window in exact arithmetic (C111, C127, C129). -/
theorem C132_spectrum [Target] (hf : f.Ordinary) (hL : AccurateCos L k) (hk0 : 0 ≤ k) (hk : (k + 120) * f.u ≤ 1 / 8) {kind : WindowKind}
    {n : ℕ} (h2 : 2 ≤ n) (hn : n < usizeMod) {o : ℕ → Option (Fl L)} (h : Yields b kind n o) {o' : ℕ → Option ℝ} (h' : Yields b kind n o')
    (θ : ℝ) : ‖dtft n (floatItems o) θ - dtft n (items o') θ‖ ≤ n * ((k + 50) * f.u) :=
  norm_dtft_sub_le (floatItems_close hf hL hk0 hk h2 hn h h') θ

/-- The six levels of C130 in one, and the sum of the window. -/
theorem lobes_all [Target] {kind : WindowKind} {n : ℕ} (h65 : 65 ≤ n) (hn : n < usizeMod) {o : ℕ → Option ℝ} (h : Yields b kind n o) :
    SidelobesBelow n (items o) (lobeEdge n kind) (lobeLevel kind) ∧ (n : ℝ) / 3 ≤ ∑ i ∈ Finset.range n, items o i ∧ 0 < lobeLevel kind ∧ lobeLevel kind ≤ 1 := by
  have hn65 : (65 : ℝ) ≤ n := by exact_mod_cast h65
  obtain ⟨N, rfl⟩ : ∃ N, n = N + 1 := ⟨n - 1, by omega⟩
  have hev := usizeMod_even
  have es : ∑ i ∈ Finset.range (N + 1), items o i = itemSum o (N + 1) := by unfold itemSum items; rfl
  have hs := C88_sums (b := b) (o := o) hn
  rw [es]
  cases kind <;> simp only [lobeEdge, lobeLevel, Nat.add_sub_cancel] <;> refine ⟨?_, ?_, by norm_num, by norm_num⟩
  · exact C130_triangular (by omega) hn h
  · obtain ⟨m, hm | hm⟩ := Nat.even_or_odd' (N + 1)
    · rw [hm] at h hn65 ⊢
      rw [(C88_sums_lines m (by omega) (by omega)).1 h]
      push_cast; linarith
    · rw [hm] at h hn65 ⊢
      rw [(C88_sums_lines m (by omega) (by omega)).2.1 h]
      push_cast at hn65 ⊢
      rw [div_le_div_iff₀ (by norm_num) (by linarith)]
      nlinarith
  · exact C130_bartlett (by omega) hn h
  · obtain ⟨m, hm | hm⟩ := Nat.even_or_odd' (N + 1)
    · rw [hm] at h hn65 ⊢
      rw [(C88_sums_lines m (by omega) (by omega)).2.2.1 h]
      push_cast at hn65 ⊢
      rw [div_le_div_iff₀ (by norm_num) (by linarith)]
      nlinarith
    · rw [hm] at h hn65 ⊢
      rw [(C88_sums_lines m (by omega) (by omega)).2.2.2 h]
      push_cast at hn65 ⊢; linarith
  · exact C130_hann (by omega) hn h
  · rw [hs.1 (by omega) h]; linarith
  · exact C130_hamming (by omega) hn h
  · rw [hs.2.1 (by omega) h]; linarith
  · exact C130_blackman (by omega) hn h
  · rw [hs.2.2.1 (by omega) h]; linarith
  · exact C130_blackman_harris (by omega) hn h
  · rw [hs.2.2.2 (by omega) h]; linarith

/-- **C132.** The levels of C130 in floating point: every window of at least 65 points, with a cosine accurate to `k` units of
`2^-precision`, keeps its side lobes below the same level plus `7 (k + 50)` such units. -/
theorem C132_lobes [Target] (hf : f.Ordinary) (hL : AccurateCos L k) (hk0 : 0 ≤ k) (hk : (k + 120) * f.u ≤ 1 / 21) {kind : WindowKind}
    {n : ℕ} (h65 : 65 ≤ n) (hn : n < usizeMod) {o : ℕ → Option (Fl L)} (h : Yields b kind n o) :
    SidelobesBelow n (floatItems o) (lobeEdge n kind) (lobeLevel kind + 7 * ((k + 50) * f.u)) := by
  obtain ⟨o', h'⟩ := (C55_exactly_size_items (T := ℝ) b kind n hn).1
  obtain ⟨h1, h2, h3, h3'⟩ := lobes_all h65 hn h'
  have hc := floatItems_close hf hL hk0 (by linarith) (by omega) hn h h'
  have hu := f.u_pos
  intro θ hθ
  have e1 := h1 θ hθ
  have e2 := norm_dtft_sub_le hc θ
  have e3 : ∑ i ∈ Finset.range n, items o' i - n * ((k + 50) * f.u) ≤ ∑ i ∈ Finset.range n, floatItems o i := by
    have : ∑ i ∈ Finset.range n, (items o' i - floatItems o i) ≤ ∑ i ∈ Finset.range n, (k + 50) * f.u :=
      Finset.sum_le_sum fun i hi => by
        have := (abs_le.mp (hc i (Finset.mem_range.mp hi))).1
        linarith
    rw [Finset.sum_sub_distrib, Finset.sum_const, Finset.card_range, nsmul_eq_mul] at this
    linarith
  have e4 : ‖dtft n (floatItems o) θ‖ ≤ ‖dtft n (items o') θ‖ + n * ((k + 50) * f.u) := by
    have := norm_sub_norm_le (dtft n (floatItems o) θ) (dtft n (items o') θ)
    linarith
  have hε0 : 0 ≤ (k + 50) * f.u := by positivity
  have hε1 : (k + 50) * f.u ≤ 1 / 21 := by nlinarith
  generalize (k + 50) * f.u = ε at *
  generalize ∑ i ∈ Finset.range n, items o' i = S at *
  generalize lobeLevel kind = ρ at *
  have hS : (n : ℝ) * ε ≤ 3 * S * ε := mul_le_mul_of_nonneg_right (by linarith) hε0
  have hS0 : 0 ≤ S := le_trans (by positivity) h2
  refine e4.trans (le_trans ?_ (mul_le_mul_of_nonneg_left e3 (by linarith)))
  have k1 : (ρ + 7 * ε) * (n * ε) ≤ (ρ + 7 * ε) * (3 * S * ε) := mul_le_mul_of_nonneg_left hS (by linarith)
  have k2 : 0 ≤ S * ε * (4 - 3 * ρ - 21 * ε) := mul_nonneg (mul_nonneg hS0 hε0) (by linarith)
  nlinarith

/-- **C132**, f32 with a cosine accurate to one unit in the last place: Blackman-Harris, the best of the six, is still 78 dB down. -/
theorem C132_f32 [Target] {L : Libm binary32} (hL : AccurateCos L 2) {kind : WindowKind} {n : ℕ} (h65 : 65 ≤ n) (hn : n < usizeMod)
    {o : ℕ → Option (Fl L)} (h : Yields b kind n o) :
    SidelobesBelow n (floatItems o) (lobeEdge n kind) (lobeLevel kind + 7 * ((2 + 50) * binary32.u)) ∧
    lobeLevel .blackmanHarris + 7 * ((2 + 50) * binary32.u) < 1 / 8100 := by
  have hu : binary32.u = 1 / 2 ^ 24 := by simp [Fmt.u, binary32]
  refine ⟨C132_lobes binary32_ordinary hL (by norm_num) (by rw [hu]; norm_num) h65 hn h, ?_⟩
  rw [hu, lobeLevel]
  norm_num

/-- **C132.** A sinusoid, sampled up to `η`, through `apply_window` in floating point: at every frequency outside the main lobes around it
and around its mirror image, what is left is at most the level of the window times the amplitude, plus the rounding. -/
theorem C132_sinusoid [Target] (hf : f.Ordinary) (hL : AccurateCos L k) (hk0 : 0 ≤ k) (hk : (k + 120) * f.u ≤ 1 / 8) {kind : WindowKind}
    {n : ℕ} (h65 : 65 ≤ n) (hn : n < usizeMod) {o' : ℕ → Option ℝ} (h' : Yields b kind n o') {A φ ω η : ℝ} (hA : |A| + η ≤ 2 ^ (f.emax - 1))
    {xs : List (Fl L)} (hl : xs.length = n) (hx : ∀ i (hi : i < xs.length), xs[i].Finite ∧ |xs[i].toReal - A * Real.cos (ω * i + φ)| ≤ η)
    {θ : ℝ} (h1 : ∀ m : ℤ, lobeEdge n kind ≤ |θ - ω - 2 * Real.pi * m|) (h2 : ∀ m : ℤ, lobeEdge n kind ≤ |θ + ω - 2 * Real.pi * m|) :
    ∃ ys, applyWindow b xs (.shaped kind) = .ok ys ∧ (∀ y ∈ ys, y.Finite) ∧
      ‖dtft n (fun i => (ys[i]?.map Fl.toReal).getD 0) θ‖ ≤
        lobeLevel kind * (|A| * ∑ i ∈ Finset.range n, items o' i) + n * ((k + 52) * f.u * (|A| + η) + f.tiny + η) := by
  subst hl
  have hη : 0 ≤ η := (abs_nonneg _).trans (hx 0 (by omega)).2
  have hu := f.u_pos
  have hlev : ∀ i (hi : i < xs.length), |xs[i].toReal| ≤ |A| + η := fun i hi => by
    have e1 := (hx i hi).2
    have e2 : |A * Real.cos (ω * i + φ)| ≤ |A| := by
      rw [abs_mul]; exact mul_le_of_le_one_right (abs_nonneg _) (Real.abs_cos_le_one _)
    have e3 := abs_sub_abs_le_abs_sub xs[i].toReal (A * Real.cos (ω * i + φ))
    linarith
  obtain ⟨ys, g1, g2, g3⟩ := C97_apply hf hL hk0 hk b kind xs (by omega) (by omega) (fun x hx' => by
    obtain ⟨i, hi, rfl⟩ := List.mem_iff_getElem.mp hx'
    exact ⟨(hx i hi).1, (hlev i hi).trans hA⟩)
  refine ⟨ys, g1, fun y hy => ?_, ?_⟩
  · obtain ⟨i, hi, rfl⟩ := List.mem_iff_getElem.mp hy
    obtain ⟨y, q1, q2, -⟩ := g3 i (by omega)
    rw [List.getElem?_eq_getElem hi] at q1
    exact Option.some.inj q1 ▸ q2
  · have hxs' : ∃ zs : List ℝ, zs.length = xs.length ∧ ∀ i < xs.length, zs[i]? = some (A * Real.cos (ω * i + φ)) :=
      ⟨List.ofFn fun i : Fin xs.length => A * Real.cos (ω * (i : ℕ) + φ), by simp, fun i hi => by simp [hi]⟩
    obtain ⟨zs, hz1, hz2⟩ := hxs'
    obtain ⟨hlob, -⟩ := lobes_all h65 hn h'
    obtain ⟨ws, w1, w2⟩ := C130_sinusoid hn h' hlob A φ ω hz1 hz2 h1 h2
    obtain ⟨ws', w3, w4, w5⟩ := C57_pointwise b kind zs (by omega) o' (by rw [hz1]; exact h')
    obtain rfl := Except.ok.inj (w1.symm.trans w3)
    have hcl : ∀ i < xs.length, |(ys[i]?.map Fl.toReal).getD 0 - ws[i]?.getD 0| ≤ (k + 52) * f.u * (|A| + η) + f.tiny + η := by
      intro i hi
      obtain ⟨y, q1, -, q3⟩ := g3 i (by omega)
      obtain ⟨g, r1, r2⟩ := w5 i (by omega)
      have hzi : zs[i] = A * Real.cos (ω * i + φ) := by
        have := hz2 i hi
        rw [List.getElem?_eq_getElem (by omega)] at this
        exact Option.some.inj this
      have hg : g = shape kind xs.length i := by
        have := items_eq hn h' hi
        rw [items, r1] at this
        exact this
      rw [q1, r2, hzi, hg]
      simp only [Option.map_some, Option.getD_some]
      have s1 := abs_shape_le (kind := kind) (show 2 ≤ xs.length by omega) hi
      have s2 := (hx i (by omega)).2
      have s3 := hlev i (by omega)
      have s4 : |shape kind xs.length i * xs[i].toReal - shape kind xs.length i * (A * Real.cos (ω * i + φ))| ≤ η := by
        rw [← mul_sub, abs_mul]
        exact (mul_le_of_le_one_left (abs_nonneg _) s1).trans s2
      have s5 : (k + 52) * f.u * |xs[i].toReal| ≤ (k + 52) * f.u * (|A| + η) := mul_le_mul_of_nonneg_left s3 (by positivity)
      have s6 := abs_sub_le y.toReal (shape kind xs.length i * xs[i].toReal) (shape kind xs.length i * (A * Real.cos (ω * i + φ)))
      show |y.toReal - shape kind xs.length i * (A * Real.cos (ω * i + φ))| ≤ _
      linarith
    have := norm_dtft_sub_le hcl θ
    have h3 := norm_sub_norm_le (dtft xs.length (fun i => (ys[i]?.map Fl.toReal).getD 0) θ) (dtft xs.length (fun i => ws[i]?.getD 0) θ)
    linarith

/-- Such a window exists: Blackman-Harris with 1024 points in f32 on a platform whose cosine is correctly rounded. -/
example [Target] : ∃ o : ℕ → Option (Fl (Libm.roundedCos binary32)), Yields b .blackmanHarris 1024 o ∧
    SidelobesBelow 1024 (floatItems o) (4 * (2 * Real.pi / (1023 : ℕ))) (1 / 8100) := by
  have hn : 1024 < usizeMod := by unfold usizeMod usizeBits; split <;> norm_num
  obtain ⟨o, h⟩ := (C55_exactly_size_items (T := Fl (Libm.roundedCos binary32)) b .blackmanHarris 1024 hn).1
  obtain ⟨h1, h2⟩ := C132_f32 (Libm.roundedCos_accurate binary32_ordinary) (by norm_num) hn h
  refine ⟨o, h, fun θ hθ => (h1 θ hθ).trans (mul_le_mul_of_nonneg_right h2.le ?_)⟩
  have hu := binary32.u_pos
  exact nonneg_of_mul_nonneg_right ((norm_nonneg _).trans (h1 θ hθ)) (by rw [lobeLevel]; positivity)

end Rasp
