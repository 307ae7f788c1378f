import Verif.Lemmas.WindowError

/-!
# C97: window values in floating point are accurate, whatever the size
-/

namespace Rasp
open FloatOps Fl
variable {f : Fmt} {L : Libm f} {k : ℝ}

theorem abs_shape_le {kind : WindowKind} {n i : ℕ} (h2 : 2 ≤ n) (hi : i < n) : |shape kind n i| ≤ 1 := by
  have hn : (2 : ℝ) ≤ n := by exact_mod_cast h2
  have hi' : (i : ℝ) ≤ n - 1 := by
    have : ((i + 1 : ℕ) : ℝ) ≤ n := by exact_mod_cast hi
    push_cast at this; linarith
  have hI : (0 : ℝ) ≤ i := Nat.cast_nonneg i
  have line : ∀ q : ℝ, |q| ≤ 1 → |(1 - |q|)| ≤ 1 := fun q hq => by
    rw [abs_of_nonneg (by linarith)]; linarith [abs_nonneg q]
  have c1 := fun w => abs_le.mp (Real.abs_cos_le_one w)
  rw [shape.eq_def]
  dsimp only
  generalize hw : 2 * Real.pi * (i : ℝ) / ((n : ℝ) - 1) = w
  have p := c1 w
  have q := c1 (2 * w)
  have r := c1 (3 * w)
  cases kind
  · apply line
    rw [abs_div, abs_of_pos (show (0 : ℝ) < n / 2 by linarith), div_le_one (by linarith), abs_le]
    constructor <;> linarith
  · apply line
    rw [abs_div, abs_of_pos (show (0 : ℝ) < (n - 1) / 2 by linarith), div_le_one (by linarith), abs_le]
    constructor <;> linarith
  all_goals
    rw [abs_le]; constructor <;> norm_num <;> linarith

/-- **C97.** Every item of a Triangular or Bartlett window of any size from two is finite and within `8` units of
`2^-precision` of the textbook shape. -/
theorem C97_lines [Target] (hf : f.Ordinary) (b : Build) (kind : WindowKind) (hk : kind = .triangular ∨ kind = .bartlett) (n : ℕ)
    (h2 : 2 ≤ n) (hn : n < usizeMod) (o : ℕ → Option (Fl L)) (h : Yields b kind n o) (i : ℕ) (hi : i < n) :
    ∃ v, o i = some v ∧ v.Finite ∧ |v.toReal - shape kind n i| ≤ 8 * f.u :=
  ⟨_, by rw [(yields_iff b kind hn o).mp h i, if_pos hi], windowVal_line hf hk h2 hn hi⟩

/-- **C97.** With a cosine accurate to `k` units of `2^-precision`, every item of a Hann, Hamming, Blackman or
Blackman-Harris window of any size from two is finite and within `k + 50` units of the textbook shape. -/
theorem C97_cosine [Target] (hf : f.Ordinary) (hL : AccurateCos L k) (hk0 : 0 ≤ k) (hk : (k + 120) * f.u ≤ 1 / 8) (b : Build) (kind : WindowKind)
    (n : ℕ) (h2 : 2 ≤ n) (hn : n < usizeMod) (o : ℕ → Option (Fl L)) (h : Yields b kind n o) (i : ℕ) (hi : i < n) :
    ∃ v, o i = some v ∧ v.Finite ∧ |v.toReal - shape kind n i| ≤ (k + 50) * f.u := by
  refine ⟨_, by rw [(yields_iff b kind hn o).mp h i, if_pos hi], ?_⟩
  by_cases hl : kind = .triangular ∨ kind = .bartlett
  · refine (windowVal_line hf hl h2 hn hi).le ?_
    have := f.u_pos
    nlinarith
  · push Not at hl
    exact windowVal_cosine hf hL hk0 hk hl.1 hl.2 h2 hn hi

theorem apply_approx [Target] (b : Build) (kind : WindowKind) (xs : List (Fl L)) (h2 : 2 ≤ xs.length)
    (hn : xs.length < usizeMod) {e : ℝ} (he : e ≤ 1 / 8)
    (hw : ∀ i < xs.length, Approx (windowVal (Fl L) kind xs.length i) (shape kind xs.length i) e)
    (hx : ∀ x ∈ xs, x.Finite ∧ |x.toReal| ≤ 2 ^ (f.emax - 1)) :
    ∃ ys, applyWindow b xs (.shaped kind) = .ok ys ∧ ys.length = xs.length ∧ ∀ i (hi : i < xs.length), ∃ y, ys[i]? = some y ∧
      y.Finite ∧ |y.toReal - shape kind xs.length i * xs[i].toReal| ≤ (e + 1.2 * f.u) * |xs[i].toReal| + f.tiny := by
  obtain ⟨o, ho⟩ := (C55_exactly_size_items (T := Fl L) b kind xs.length hn).1
  obtain ⟨ys, h1, h3, h4⟩ := C57_pointwise b kind xs hn o ho
  refine ⟨ys, h1, h3, fun i hi => ?_⟩
  obtain ⟨g, h5, h6⟩ := h4 i hi
  refine ⟨_, h6, ?_⟩
  have hg := hw i hi
  rw [(yields_iff b kind hn o).mp ho i, if_pos hi] at h5
  rw [Option.some.inj h5] at hg
  obtain ⟨hx1, hx2⟩ := hx _ (List.getElem_mem hi)
  have hs := abs_shape_le (kind := kind) h2 hi
  have hem : (2 : ℝ) ^ f.emax = 2 * 2 ^ (f.emax - 1) := by
    rw [← zpow_one_add₀ (by norm_num)]; congr 1; ring
  have h0 := abs_nonneg xs[i].toReal
  have h7 := mul_le_mul_of_nonneg_right he h0
  have h8 := mul_le_mul_of_nonneg_right hs h0
  have h9 := mul_nonneg f.u_pos.le h0
  exact Approx.mul hg (.refl hx1) (x := e * |xs[i].toReal|) (B := 1.2 * |xs[i].toReal|) (by linarith)
    (by rw [abs_mul]; linarith) (by linarith) (by linarith)

/-- **C97.** `apply_window` with a Triangular or Bartlett window: every output is finite and within about `10` units of
`2^-precision`, relative to the sample, of the sample times the textbook shape. -/
theorem C97_apply_lines [Target] (hf : f.Ordinary) (b : Build) (kind : WindowKind) (hk : kind = .triangular ∨ kind = .bartlett)
    (xs : List (Fl L)) (h2 : 2 ≤ xs.length) (hn : xs.length < usizeMod)
    (hx : ∀ x ∈ xs, x.Finite ∧ |x.toReal| ≤ 2 ^ (f.emax - 1)) :
    ∃ ys, applyWindow b xs (.shaped kind) = .ok ys ∧ ys.length = xs.length ∧ ∀ i (hi : i < xs.length), ∃ y, ys[i]? = some y ∧
      y.Finite ∧ |y.toReal - shape kind xs.length i * xs[i].toReal| ≤ 9.2 * f.u * |xs[i].toReal| + f.tiny := by
  have := apply_approx b kind xs h2 hn (by linarith [hf.u_le']) (fun i hi => windowVal_line hf hk h2 hn hi) hx
  rwa [← add_mul, show (8 : ℝ) + 1.2 = 9.2 by norm_num] at this

/-- **C97.** `apply_window` with any shape, given an accurate cosine. -/
theorem C97_apply [Target] (hf : f.Ordinary) (hL : AccurateCos L k) (hk0 : 0 ≤ k) (hk : (k + 120) * f.u ≤ 1 / 8) (b : Build)
    (kind : WindowKind) (xs : List (Fl L)) (h2 : 2 ≤ xs.length) (hn : xs.length < usizeMod)
    (hx : ∀ x ∈ xs, x.Finite ∧ |x.toReal| ≤ 2 ^ (f.emax - 1)) :
    ∃ ys, applyWindow b xs (.shaped kind) = .ok ys ∧ ys.length = xs.length ∧ ∀ i (hi : i < xs.length), ∃ y, ys[i]? = some y ∧
      y.Finite ∧ |y.toReal - shape kind xs.length i * xs[i].toReal| ≤ (k + 52) * f.u * |xs[i].toReal| + f.tiny := by
  have hu := f.u_pos
  obtain ⟨ys, h1, h3, h4⟩ := apply_approx b kind xs h2 hn (e := (k + 50) * f.u) (by nlinarith) (fun i hi => by
    by_cases hl : kind = .triangular ∨ kind = .bartlett
    · exact (windowVal_line hf hl h2 hn hi).le (by nlinarith)
    · push Not at hl
      exact windowVal_cosine hf hL hk0 hk hl.1 hl.2 h2 hn hi) hx
  refine ⟨ys, h1, h3, fun i hi => ?_⟩
  obtain ⟨y, h5, h6, h7⟩ := h4 i hi
  refine ⟨y, h5, h6, h7.trans ?_⟩
  have := mul_nonneg hu.le (abs_nonneg xs[i].toReal)
  linarith

/-- **C97.** f32, with a cosine accurate to one unit in the last place: every item of every window is within `3.1e-6` of the
textbook shape. -/
theorem C97_f32 [Target] {L : Libm binary32} (hL : AccurateCos L 2) (b : Build) (kind : WindowKind) (n : ℕ) (h2 : 2 ≤ n) (hn : n < usizeMod)
    (o : ℕ → Option (Fl L)) (h : Yields b kind n o) (i : ℕ) (hi : i < n) :
    ∃ v, o i = some v ∧ v.Finite ∧ |v.toReal - shape kind n i| ≤ 3.1e-6 := by
  have hu : binary32.u = 1 / 2 ^ 24 := by simp [Fmt.u, binary32]
  obtain ⟨v, h1, h3, h4⟩ := C97_cosine binary32_ordinary hL (by norm_num) (by rw [hu]; norm_num) b kind n h2 hn o h i hi
  exact ⟨v, h1, h3, h4.trans (by rw [hu]; norm_num)⟩

/-- **C97.** … and in f64 within `5.8e-15`. -/
theorem C97_f64 [Target] {L : Libm binary64} (hL : AccurateCos L 2) (b : Build) (kind : WindowKind) (n : ℕ) (h2 : 2 ≤ n) (hn : n < usizeMod)
    (o : ℕ → Option (Fl L)) (h : Yields b kind n o) (i : ℕ) (hi : i < n) :
    ∃ v, o i = some v ∧ v.Finite ∧ |v.toReal - shape kind n i| ≤ 5.8e-15 := by
  have hu : binary64.u = 1 / 2 ^ 53 := by simp [Fmt.u, binary64]
  obtain ⟨v, h1, h3, h4⟩ := C97_cosine binary64_ordinary hL (by norm_num) (by rw [hu]; norm_num) b kind n h2 hn o h i hi
  exact ⟨v, h1, h3, h4.trans (by rw [hu]; norm_num)⟩

/-- The assumption holds of a correctly rounded cosine, so these are about windows that exist. -/
theorem Libm.roundedCos_accurate (hf : f.Ordinary) : AccurateCos (Libm.roundedCos f) 2 := by
  intro x hx _
  obtain ⟨s, a, h, rfl⟩ := FP.finite_cases hx
  have hno : FP.NoOvf f (Real.cos (FP.toReal (.fin s a h : FP f))) :=
    FP.noOvf_of_le (isRep_one f) (FP.one_lt_lim f) (Real.abs_cos_le_one _)
  obtain ⟨h2, h3⟩ := FP.ofReal_of_noOvf (s := false) hno
  refine ⟨h2, ?_⟩
  show |FP.toReal (FP.ofReal f false _) - _| ≤ _
  rw [h3]
  have h4 := abs_rnd_sub_le_u f (Real.cos (FP.toReal (.fin s a h : FP f)))
  have h5 := mul_le_mul_of_nonneg_left (Real.abs_cos_le_one (FP.toReal (.fin s a h : FP f))) f.u_pos.le
  have := hf.tiny_le
  have := f.u_pos
  exact h4.trans (by linarith)

example : AccurateCos (Libm.roundedCos binary32) 2 ∧ AccurateCos (Libm.roundedCos binary64) 2 :=
  ⟨Libm.roundedCos_accurate binary32_ordinary, Libm.roundedCos_accurate binary64_ordinary⟩

/-- A size that f32 cannot even represent is covered. -/
example [Target] (b : Build) : ∃ o : ℕ → Option (Fl (Libm.roundedCos binary32)), Yields b .hann (2 ^ 24 + 1) o ∧
    ∀ i < 2 ^ 24 + 1, ∃ v, o i = some v ∧ v.Finite ∧ |v.toReal - shape .hann (2 ^ 24 + 1 : ℕ) i| ≤ 3.1e-6 := by
  obtain ⟨o, ho⟩ := (C55_exactly_size_items (T := Fl (Libm.roundedCos binary32)) b .hann (2 ^ 24 + 1) (by have := target; omega)).1
  exact ⟨o, ho, fun i hi => C97_f32 (Libm.roundedCos_accurate binary32_ordinary) b .hann _ (by norm_num) (by have := target; omega) o ho i hi⟩

end Rasp
