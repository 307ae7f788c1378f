import Verif.Spec.Bands
import Verif.Props.WindowedSinc

/-!
# C159: filters with several bands designed with a window
-/

namespace Rasp
open FloatOps
variable {b : Build}

theorem bandTap_neg (bands : List (ℝ × ℝ)) (m : ℤ) : bandTap bands (-m) = bandTap bands m := by
  unfold bandTap
  simp only [idealTap_neg]

theorem bandTaps_getD {M : ℕ} (bands : List (ℝ × ℝ)) {k : ℕ} (hk : k < 2 * M + 1) : (bandTaps M bands).getD k 0 = bandTap bands (k - M) := by
  unfold bandTaps
  rw [List.getD_eq_getElem?_getD, List.getElem?_map, List.getElem?_range hk]
  rfl

theorem idealTap_pi (m : ℤ) : idealTap Real.pi m = if m = 0 then 1 else 0 := by
  unfold idealTap
  split_ifs with h
  · exact div_self Real.pi_ne_zero
  · rw [mul_comm Real.pi (m : ℝ), Real.sin_int_mul_pi, zero_div]

theorem band_design_facts [Target] {kind : WindowKind} {M : ℕ} (hM : 1 ≤ M) (hn : 2 * M + 1 < usizeMod) {o : ℕ → Option ℝ} (h : Yields b kind (2 * M + 1) o)
    {bands : List (ℝ × ℝ)} {cs : List ℝ} (hc : applyWindow b (bandTaps M bands) (.shaped kind) = .ok cs) :
    cs.length = 2 * M + 1 ∧ (∀ k < 2 * M + 1, cs.getD (2 * M - k) 0 = cs.getD k 0) ∧ (∀ k < 2 * M + 1, cs.getD k 0 = bandTap bands (k - M) * items o k) ∧
      ∀ ω, cosSum (fun k => cs.getD k 0) M ω = cosSum (fun k => bandTap bands (k - M) * items o k) M ω := by
  have hl : (bandTaps M bands).length = 2 * M + 1 := by simp [bandTaps]
  rw [← hl] at h hn
  obtain ⟨e1, e2⟩ := getD_applied hn h hc
  rw [hl] at e1 e2 hn h
  have e3 : ∀ k < 2 * M + 1, cs.getD k 0 = bandTap bands (k - M) * items o k := fun k hk => by rw [e2 k hk, bandTaps_getD bands hk]
  refine ⟨e1, fun k hk => ?_, e3, fun ω => Finset.sum_congr rfl fun k hk => by beta_reduce; rw [e3 k (Finset.mem_range.1 hk)]⟩
  have hsym : items o (2 * M - k) = items o k := by
    unfold items
    rw [C58_symmetric b kind (2 * M + 1) (by omega) hn o h k hk]
    congr 2
  rw [e3 k hk, e3 (2 * M - k) (by omega), hsym, Nat.cast_sub (by omega), ← bandTap_neg bands (k - M)]
  congr 2
  push_cast
  ring

theorem cosSum_bandTap (bands : List (ℝ × ℝ)) (v : ℕ → ℝ) (M : ℕ) (ω : ℝ) :
    cosSum (fun k => bandTap bands (k - M) * v k) M ω = (bands.map fun p => p.1 * cosSum (fun k => idealTap p.2 (k - M) * v k) M ω).sum := by
  induction bands with
  | nil => simp [cosSum, bandTap]
  | cons p bands ih =>
    rw [List.map_cons, List.sum_cons, ← ih]
    unfold cosSum
    rw [Finset.mul_sum, ← Finset.sum_add_distrib]
    refine Finset.sum_congr rfl fun k _ => ?_
    simp only [bandTap, List.map_cons, List.sum_cons]
    ring

theorem lowpass_gain [Target] {kind : WindowKind} (hk : kind = .hann ∨ kind = .blackman) {M : ℕ} (hM : 32 ≤ M) (hn : 2 * M + 1 < usizeMod) {o : ℕ → Option ℝ}
    (h : Yields b kind (2 * M + 1) o) {Ω t : ℝ} (hΩ : 0 ≤ Ω) (ht1 : 4 * (2 * Real.pi / (2 * M : ℕ)) ≤ t) (ht2 : t ≤ Real.pi) (hΩ2 : Ω ≤ Real.pi - t) (ω : ℝ) :
    NearlyIdeal Ω t (designRipple (cosineCoefs kind) (2 * M) t) ω (cosSum (fun k => idealTap Ω (k - M) * items o k) M ω) := by
  have hpi := Real.pi_pos
  have ht1' : 8 * (Real.pi / (2 * M : ℕ)) ≤ t := le_trans (le_of_eq (by ring)) ht1
  have hd0 : 0 ≤ Real.pi / (2 * M : ℕ) := by positivity
  rw [designRipple_eq]
  refine nearlyIdeal_of (F' := fun θ => Real.sin θ / 2 * poles (cosineCoefs kind) (2 * M) (θ / 2)) ?_ (by linarith) ht2
    (fun θ hθ => (cosSum_shape_le hk hM hn h (ht1'.trans hθ.1) hθ.2).1) (fun θ hθ => (cosSum_shape_le hk hM hn h (ht1'.trans hθ.1) hθ.2).2) hΩ hΩ2 ω
  unfold items
  rw [C60_centre b kind M (by omega) hn o h]
  rfl

theorem everything_gain [Target] {kind : WindowKind} {M : ℕ} (hM : 1 ≤ M) (hn : 2 * M + 1 < usizeMod) {o : ℕ → Option ℝ}
    (h : Yields b kind (2 * M + 1) o) (ω : ℝ) : cosSum (fun k => idealTap Real.pi (k - M) * items o k) M ω = 1 := by
  unfold cosSum
  rw [Finset.sum_eq_single_of_mem M (Finset.mem_range.2 (by omega))]
  · beta_reduce
    rw [idealTap_pi, if_pos (sub_self _), sub_self, mul_zero, Real.cos_zero, one_mul, mul_one]
    unfold items
    rw [C60_centre b kind M (by omega) hn o h]
    rfl
  · intro k _ hk
    beta_reduce
    rw [idealTap_pi, if_neg (by omega), zero_mul, zero_mul]

/-- The gain of the design. -/
theorem band_gain [Target] {kind : WindowKind} (hk : kind = .hann ∨ kind = .blackman) {M : ℕ} (hM : 32 ≤ M) (hn : 2 * M + 1 < usizeMod) {o : ℕ → Option ℝ}
    (h : Yields b kind (2 * M + 1) o) {bands : List (ℝ × ℝ)} {t ω : ℝ} (ht1 : 4 * (2 * Real.pi / (2 * M : ℕ)) ≤ t) (ht2 : t ≤ Real.pi)
    (he : EdgesWithin bands t) (hω : AwayFromEdges bands t ω) :
    |cosSum (fun k => bandTap bands (k - M) * items o k) M ω - bandGain bands ω| ≤ bandSteps bands * designRipple (cosineCoefs kind) (2 * M) t := by
  have hpi := Real.pi_pos
  have ht0 : 0 < t := lt_of_lt_of_le (by positivity) ht1
  rw [cosSum_bandTap]
  obtain ⟨hω1, hω2⟩ := hω
  induction bands with
  | nil => simp [bandGain, bandSteps]
  | cons p bands ih =>
    have i1 := ih (fun q hq => he q (List.mem_cons_of_mem _ hq)) (fun q hq => hω2 q (List.mem_cons_of_mem _ hq))
    have i2 : |p.1 * cosSum (fun k => idealTap p.2 (k - M) * items o k) M ω - if |ω| ≤ p.2 then p.1 else 0| ≤
        (if p.2 = Real.pi then 0 else |p.1|) * designRipple (cosineCoefs kind) (2 * M) t := by
      by_cases hp : p.2 = Real.pi
      · rw [if_pos hp, hp, if_pos hω1, everything_gain (by omega) hn h, mul_one, sub_self, abs_zero, zero_mul]
      · rw [if_neg hp]
        obtain ⟨e1, e2⟩ := (he p List.mem_cons_self).resolve_left hp
        obtain ⟨g1, g2⟩ := lowpass_gain hk hM hn h e1 ht1 ht2 e2 ω
        rcases (hω2 p List.mem_cons_self).resolve_left hp with c | c
        · rw [if_pos (by linarith), ← mul_sub_one, abs_mul]
          exact mul_le_mul_of_nonneg_left (g1 c) (abs_nonneg _)
        · rw [if_neg (by linarith), sub_zero, abs_mul]
          exact mul_le_mul_of_nonneg_left (g2 c hω1) (abs_nonneg _)
    simp only [List.map_cons, List.sum_cons, bandGain, bandSteps] at i1 i2 ⊢
    rw [add_mul, add_sub_add_comm]
    exact (abs_add_le _ _).trans (add_le_add i2 i1)

/-- **C159.** Any sum of ideal low-pass filters, cut off by a Hann or Blackman window of `2M + 1` points, as the taps of a delay line: a sinusoid of any frequency
comes out delayed by exactly `M` samples, multiplied by a gain that is, `t` or more away from all edges, within `designRipple` times the sum of the steps of the
ideal gain. -/
theorem C159_bands [Target] {kind : WindowKind} (hk : kind = .hann ∨ kind = .blackman) {M : ℕ} (hM : 32 ≤ M) (hn : 2 * M + 1 < usizeMod)
    (bands : List (ℝ × ℝ)) : ∃ cs, applyWindow b (bandTaps M bands) (.shaped kind) = .ok cs ∧ cs.length = 2 * M + 1 ∧
      ∀ (σ : Type) [Processor σ ℝ] [TappableDelayLine σ ℝ] (s : σ), IsTapFir b (tapsOf cs) s → ∀ ω, ∃ r,
        (∀ t, 4 * (2 * Real.pi / (2 * M : ℕ)) ≤ t → t ≤ Real.pi → EdgesWithin bands t → AwayFromEdges bands t ω →
          |r - bandGain bands ω| ≤ bandSteps bands * designRipple (cosineCoefs kind) (2 * M) t) ∧
        ∀ A φ x y, (∀ n : ℕ, x n = A * Real.cos (ω * n + φ)) → Gathers b (tapsOf cs) s x y → ∀ n ≥ 2 * M, y n = r * (A * Real.cos (ω * (n - M) + φ)) := by
  obtain ⟨o, h⟩ := (C55_exactly_size_items (T := ℝ) b kind (2 * M + 1) hn).1
  have hl : (bandTaps M bands).length = 2 * M + 1 := by simp [bandTaps]
  obtain ⟨cs, hc, -⟩ := C57_pointwise b kind (bandTaps M bands) (by rw [hl]; exact hn) o (by rw [hl]; exact h)
  obtain ⟨f1, f2, -, f4⟩ := band_design_facts (by omega) hn h hc
  refine ⟨cs, hc, f1, fun σ _ _ s hs ω => ⟨cosSum (fun k => cs.getD k 0) M ω, fun t ht1 ht2 he hω => ?_, fun A φ x y hx hy n hn' =>
    symmetric_output f1 hs f2 ω hx hy hn'⟩⟩
  rw [f4]
  exact band_gain hk hM hn h ht1 ht2 he hω

/-- **C159**, the usual filters: what the ideal gain and the sum of the steps are for high-pass, band-pass and band-stop filters. -/
theorem C159_kinds {Ω Ω' t ω : ℝ} (ht : 0 < t) (h1 : Ω + 2 * t ≤ Ω') (h2 : Ω' ≤ Real.pi - t) (hω : |ω| ≤ Real.pi) :
    (bandSteps (highPassBands Ω) = 1 ∧ (|ω| ≤ Ω - t → bandGain (highPassBands Ω) ω = 0) ∧ (Ω + t ≤ |ω| → bandGain (highPassBands Ω) ω = 1)) ∧
    (bandSteps (bandPassBands Ω Ω') = 2 ∧ (|ω| ≤ Ω - t ∨ Ω' + t ≤ |ω| → bandGain (bandPassBands Ω Ω') ω = 0) ∧
      (Ω + t ≤ |ω| → |ω| ≤ Ω' - t → bandGain (bandPassBands Ω Ω') ω = 1)) ∧
    (bandSteps (bandStopBands Ω Ω') = 2 ∧ (|ω| ≤ Ω - t ∨ Ω' + t ≤ |ω| → bandGain (bandStopBands Ω Ω') ω = 1) ∧
      (Ω + t ≤ |ω| → |ω| ≤ Ω' - t → bandGain (bandStopBands Ω Ω') ω = 0)) := by
  have a1 : Ω ≠ Real.pi := by intro h; linarith
  have a2 : Ω' ≠ Real.pi := by intro h; linarith
  simp only [bandSteps, bandGain, highPassBands, bandPassBands, bandStopBands, List.map_cons, List.map_nil, List.sum_cons, List.sum_nil, if_neg a1, if_neg a2, if_pos hω,
    if_true, abs_neg, abs_one]
  refine ⟨⟨by norm_num, fun h => ?_, fun h => ?_⟩, ⟨by norm_num, fun h => ?_, fun h h' => ?_⟩, ⟨by norm_num, fun h => ?_, fun h h' => ?_⟩⟩
  · rw [if_pos (by linarith)]; norm_num
  · rw [if_neg (by linarith)]; norm_num
  · rcases h with h | h
    · rw [if_pos (by linarith), if_pos (by linarith)]; norm_num
    · rw [if_neg (by linarith), if_neg (by linarith)]; norm_num
  · rw [if_pos (by linarith), if_neg (by linarith)]; norm_num
  · rcases h with h | h
    · rw [if_pos (by linarith), if_pos (by linarith)]; norm_num
    · rw [if_neg (by linarith), if_neg (by linarith)]; norm_num
  · rw [if_pos (by linarith), if_neg (by linarith)]; norm_num

theorem bandTap_complement (bands : List (ℝ × ℝ)) (m : ℤ) : bandTap (complementBands bands) m = idealTap Real.pi m - bandTap bands m := by
  unfold bandTap complementBands
  rw [List.map_cons, List.sum_cons, one_mul, List.map_map, sub_eq_add_neg]
  congr 1
  induction bands with
  | nil => simp
  | cons p bands ih =>
    rw [List.map_cons, List.map_cons, List.sum_cons, List.sum_cons, ih, neg_add]
    congr 1
    exact neg_mul _ _

theorem fir_tapsOf (cs : List ℝ) (x : ℕ → ℝ) (n : ℕ) : fir (tapsOf cs) x n = ∑ k ∈ Finset.range cs.length, cs.getD k 0 * lag x k n := by
  rw [fir_eq_sum]
  unfold tapsOf
  rw [List.map_map, sum_map_range]
  rfl

/-- **C159**, crossovers. With any window, the outputs of a filter and of its complement add up to the input `M` samples ago, whatever the input: nothing is lost. -/
theorem C159_crossover [Target] (kind : WindowKind) {M : ℕ} (hM : 1 ≤ M) (hn : 2 * M + 1 < usizeMod) (bands : List (ℝ × ℝ)) :
    ∃ cs ds, applyWindow b (bandTaps M bands) (.shaped kind) = .ok cs ∧ applyWindow b (bandTaps M (complementBands bands)) (.shaped kind) = .ok ds ∧
      cs.length = 2 * M + 1 ∧ ds.length = 2 * M + 1 ∧
      ∀ (σ σ' : Type) [Processor σ ℝ] [TappableDelayLine σ ℝ] [Processor σ' ℝ] [TappableDelayLine σ' ℝ] (s : σ) (s' : σ'),
        IsTapFir b (tapsOf cs) s → IsTapFir b (tapsOf ds) s' → ∀ x y y', Gathers b (tapsOf cs) s x y → Gathers b (tapsOf ds) s' x y' →
          ∀ n, y n + y' n = lag x M n := by
  obtain ⟨o, h⟩ := (C55_exactly_size_items (T := ℝ) b kind (2 * M + 1) hn).1
  have hl : ∀ bs, (bandTaps M bs).length = 2 * M + 1 := fun bs => by simp [bandTaps]
  obtain ⟨cs, hc, -⟩ := C57_pointwise b kind (bandTaps M bands) (by rw [hl]; exact hn) o (by rw [hl]; exact h)
  obtain ⟨ds, hd, -⟩ := C57_pointwise b kind (bandTaps M (complementBands bands)) (by rw [hl]; exact hn) o (by rw [hl]; exact h)
  obtain ⟨f1, -, f2, -⟩ := band_design_facts hM hn h hc
  obtain ⟨g1, -, g2, -⟩ := band_design_facts hM hn h hd
  refine ⟨cs, ds, hc, hd, f1, g1, fun σ σ' _ _ _ _ s s' hs hs' x y y' hy hy' n => ?_⟩
  rw [(hs x y).mp hy, (hs' x y').mp hy', fir_tapsOf, fir_tapsOf, f1, g1, ← Finset.sum_add_distrib, Finset.sum_eq_single_of_mem M (Finset.mem_range.2 (by omega))]
  · rw [f2 M (by omega), g2 M (by omega), bandTap_complement, ← add_mul, ← add_mul, add_sub_cancel, idealTap_pi, if_pos (sub_self _), one_mul]
    unfold items
    rw [C60_centre b kind M hM hn o h]
    exact one_mul _
  · intro k hk hkM
    rw [Finset.mem_range] at hk
    rw [f2 k hk, g2 k hk, bandTap_complement, ← add_mul, ← add_mul, add_sub_cancel, idealTap_pi, if_neg (by omega), zero_mul, zero_mul]

/-- The complements of low-pass and band-pass filters. -/
example (Ω Ω' : ℝ) : complementBands [(1, Ω)] = highPassBands Ω ∧ complementBands (bandPassBands Ω Ω') = bandStopBands Ω Ω' := by
  simp [complementBands, highPassBands, bandStopBands, bandPassBands]

/-- A band-pass filter of 65 taps between an eighth and three eighths of the sample rate, in a `Delay`: it keeps a quarter of the sample rate to within two parts in
eighty, and damps half the sample rate as much. -/
example [Target] (hm : Allocatable ℝ 64) (hn : 65 < usizeMod) : ∃ cs, applyWindow b (bandTaps 32 (bandPassBands (Real.pi / 4) (3 * Real.pi / 4))) (.shaped .hann) = .ok cs ∧
    ∃ s : Delay ℝ, Delay.new b 0 64 = .ok s ∧
      (∀ x y, (∀ n : ℕ, x n = 1 * Real.cos (Real.pi / 2 * n + 0)) → Gathers b (tapsOf cs) s x y → ∀ n ≥ 64, |y n - Real.cos (Real.pi / 2 * (n - (32 : ℕ)))| ≤ 2 / 80) ∧
      ∀ x y, (∀ n : ℕ, x n = 1 * Real.cos (Real.pi * n + 0)) → Gathers b (tapsOf cs) s x y → ∀ n ≥ 64, |y n| ≤ 2 / 80 := by
  have hpi := Real.pi_pos
  obtain ⟨cs, h1, hl, h2⟩ := C159_bands (b := b) (kind := .hann) (.inl rfl) (M := 32) le_rfl hn (bandPassBands (Real.pi / 4) (3 * Real.pi / 4))
  have ht : ∀ p ∈ tapsOf cs, p.2 ≤ 64 := tapsOf_le (by omega)
  obtain ⟨s, hs, -⟩ := C116_delay_gather (b := b) (d := 0) hm (tapsOf cs) ht (fun _ => 0)
  obtain ⟨t, ht0⟩ : ∃ t, t = 4 * (2 * Real.pi / (2 * 32 : ℕ)) := ⟨_, rfl⟩
  have ht1 : t = Real.pi / 8 := by rw [ht0]; norm_num; ring
  have hρ : designRipple (cosineCoefs .hann) (2 * 32) t ≤ 1 / 80 := by
    obtain ⟨c1, -, c2⟩ := C158_ripple (M := 32) le_rfl (t := t) ht0.ge (by linarith)
    refine c1.trans ?_
    norm_num at c2 ⊢
    linarith
  have he : EdgesWithin (bandPassBands (Real.pi / 4) (3 * Real.pi / 4)) t := by
    intro p hp
    simp only [bandPassBands, List.mem_cons, List.not_mem_nil, or_false] at hp
    right
    rcases hp with rfl | rfl <;> constructor <;> simp only <;> linarith
  have hk : ∀ ω, _ := fun ω hω => C159_kinds (Ω := Real.pi / 4) (Ω' := 3 * Real.pi / 4) (t := t) (ω := ω) (by linarith) (by linarith) (by linarith) hω
  refine ⟨cs, h1, s, hs, ?_, ?_⟩
  · have hω : |Real.pi / 2| = Real.pi / 2 := abs_of_pos (by linarith)
    obtain ⟨r, h3, h4⟩ := h2 _ s (C155_delay hm ht hs) (Real.pi / 2)
    obtain ⟨-, ⟨k1, -, k2⟩, -⟩ := hk (Real.pi / 2) (by linarith)
    have h5 := h3 t ht0.ge (by linarith) he ⟨by linarith, by
      intro p hp
      simp only [bandPassBands, List.mem_cons, List.not_mem_nil, or_false] at hp
      right
      rw [hω]
      rcases hp with rfl | rfl
      · left; simp only; linarith
      · right; simp only; linarith⟩
    rw [k1, k2 (by linarith) (by linarith)] at h5
    intro x y hx hy n hn'
    rw [h4 1 0 x y hx hy n hn', one_mul, add_zero, ← sub_one_mul, abs_mul]
    refine (mul_le_of_le_one_right (abs_nonneg _) (Real.abs_cos_le_one _)).trans (h5.trans ?_)
    linarith
  · have hω : |Real.pi| = Real.pi := abs_of_pos hpi
    obtain ⟨r, h3, h4⟩ := h2 _ s (C155_delay hm ht hs) Real.pi
    obtain ⟨-, ⟨k1, k2, -⟩, -⟩ := hk Real.pi (by linarith)
    have h5 := h3 t ht0.ge (by linarith) he ⟨by linarith, by
      intro p hp
      simp only [bandPassBands, List.mem_cons, List.not_mem_nil, or_false] at hp
      right
      rw [hω]
      rcases hp with rfl | rfl
      · right; simp only; linarith
      · right; simp only; linarith⟩
    rw [k1, k2 (.inr (by linarith)), sub_zero] at h5
    intro x y hx hy n hn'
    rw [h4 1 0 x y hx hy n hn', one_mul, abs_mul]
    refine (mul_le_of_le_one_right (abs_nonneg _) (Real.abs_cos_le_one _)).trans (h5.trans ?_)
    linarith

section float
variable {f : Fmt} {L : Libm f} {k : ℝ}

theorem abs_bandTap_le {bands : List (ℝ × ℝ)} (hb : ∀ p ∈ bands, 0 ≤ p.2 ∧ p.2 ≤ Real.pi) (m : ℤ) : |bandTap bands m| ≤ bandTotal bands := by
  induction bands with
  | nil => simp [bandTap, bandTotal]
  | cons p bands ih =>
    have i1 := ih fun q hq => hb q (List.mem_cons_of_mem _ hq)
    obtain ⟨h1, h2⟩ := hb p List.mem_cons_self
    simp only [bandTap, bandTotal, List.map_cons, List.sum_cons] at i1 ⊢
    refine (abs_add_le _ _).trans (add_le_add ?_ i1)
    rw [abs_mul]
    exact mul_le_of_le_one_right (abs_nonneg _) (abs_idealTap_le h1 h2 m)

/-- **C159**, floating point. The same with samples of the ideal response that are off by at most `ε`, `apply_window` and the filter in floating point, and a sinusoid
sampled up to `η`: the output is that of a filter as good as in exact arithmetic, up to the rounding errors of weights and sums. -/
theorem C159_float [Target] (hf : f.Ordinary) (hL : AccurateCos L k) (hk0 : 0 ≤ k) (hk : (k + 120) * f.u ≤ 1 / 8) {kind : WindowKind}
    (hkind : kind = .hann ∨ kind = .blackman) {M : ℕ} (hM : 32 ≤ M) (hn : 2 * M + 1 < usizeMod) (hN : 4 * ((2 * M + 1 : ℕ) * f.u) ≤ 1) {bands : List (ℝ × ℝ)} {B ε : ℝ}
    (hB : bandTotal bands = B) (hb : ∀ p ∈ bands, 0 ≤ p.2 ∧ p.2 ≤ Real.pi) (hε : B + ε ≤ 2 ^ (f.emax - 1)) {hs : List (Fl L)} (hl : hs.length = 2 * M + 1)
    (hh : ∀ i (hi : i < hs.length), hs[i].Finite ∧ |hs[i].toReal - bandTap bands ((i : ℤ) - M)| ≤ ε) {δ W : ℝ} (hδ : δ = (k + 52) * f.u * (B + ε) + f.tiny + ε)
    (hW : W = (2 * M + 1 : ℕ) * (B + δ)) :
    ∃ cs, applyWindow b hs (.shaped kind) = .ok cs ∧ cs.length = 2 * M + 1 ∧
      ∀ (σ : Type) [Processor σ (Fl L)] [TappableDelayLine σ (Fl L)] (s : σ), IsTapFir b (tapsOf cs) s → ∀ ω, ∃ r,
        (∀ t, 4 * (2 * Real.pi / (2 * M : ℕ)) ≤ t → t ≤ Real.pi → EdgesWithin bands t → AwayFromEdges bands t ω →
          |r - bandGain bands ω| ≤ bandSteps bands * designRipple (cosineCoefs kind) (2 * M) t) ∧
        ∀ A φ η x y, 0 ≤ A → SampledSine x A ω φ η → 5 * (W * (A + η) + (2 * M + 1 : ℕ) * f.tiny) ≤ 2 ^ f.emax → Gathers b (tapsOf cs) s x y →
          ∀ n ≥ 2 * M, (y n).Finite ∧ |(y n).toReal - r * (A * Real.cos (ω * (n - M) + φ))| ≤
            (2 * M + 1 : ℕ) * δ * A + (W * η + 4 * (2 * M + 1 : ℕ) * (f.u * (W * (A + η)) + f.tiny)) := by
  have hpi := Real.pi_pos
  have hu := f.u_pos
  have ht := f.tiny_pos
  have hε0 : 0 ≤ ε := (abs_nonneg _).trans (hh 0 (by omega)).2
  have hbt : ∀ m, |bandTap bands m| ≤ B := fun m => hB ▸ abs_bandTap_le hb m
  have hB0 : 0 ≤ B := (abs_nonneg _).trans (hbt 0)
  have hδ0 : 0 ≤ δ := by rw [hδ]; positivity
  obtain ⟨o, h⟩ := (C55_exactly_size_items (T := ℝ) b kind (2 * M + 1) hn).1
  obtain ⟨ds, hds, -, -⟩ := C159_bands (b := b) hkind hM hn bands
  obtain ⟨f1, f2, f3, f4⟩ := band_design_facts (by omega) hn h hds
  have hlev : ∀ i (hi : i < hs.length), |hs[i].toReal| ≤ B + ε := fun i hi => by
    have e1 := (hh i hi).2
    have e2 := hbt ((i : ℤ) - M)
    have e3 := abs_sub_abs_le_abs_sub hs[i].toReal (bandTap bands ((i : ℤ) - M))
    linarith
  obtain ⟨cs, g1, g2, g3⟩ := C97_apply hf hL hk0 hk b kind hs (by omega) (by omega) (fun x hx' => by
    obtain ⟨i, hi, rfl⟩ := List.mem_iff_getElem.mp hx'
    exact ⟨(hh i hi).1, (hlev i hi).trans hε⟩)
  have hcl : ∀ i < 2 * M + 1, (cs.getD i zero).Finite ∧ |(cs.map Fl.toReal).getD i 0 - ds.getD i 0| ≤ δ ∧ |ds.getD i 0| ≤ B := by
    intro i hi
    obtain ⟨y, q1, q2, q3⟩ := g3 i (by omega)
    have e0 : (cs.map Fl.toReal).getD i 0 = y.toReal := by
      rw [List.getD_eq_getElem?_getD, List.getElem?_map, q1]; rfl
    have e1 : cs.getD i zero = y := by rw [List.getD_eq_getElem?_getD, q1]; rfl
    rw [e0, e1, f3 i hi, items_eq hn h hi, mul_comm (bandTap bands _)]
    have q3 : |y.toReal - shape kind (2 * M + 1 : ℕ) i * hs[i].toReal| ≤ (k + 52) * f.u * |hs[i].toReal| + f.tiny := by
      have e : (hs.length : ℝ) = (2 * M + 1 : ℕ) := by rw [hl]
      rwa [e] at q3
    have s1 := abs_shape_le (kind := kind) (show 2 ≤ 2 * M + 1 by omega) hi
    have s2 := (hh i (by omega)).2
    have s3 := hlev i (by omega)
    have s4 : |shape kind (2 * M + 1 : ℕ) i * hs[i].toReal - shape kind (2 * M + 1 : ℕ) i * bandTap bands ((i : ℤ) - M)| ≤ ε := by
      rw [← mul_sub, abs_mul]
      exact (mul_le_of_le_one_left (abs_nonneg _) s1).trans s2
    have s5 : (k + 52) * f.u * |hs[i].toReal| ≤ (k + 52) * f.u * (B + ε) := mul_le_mul_of_nonneg_left s3 (by positivity)
    have s6 := abs_sub_le y.toReal (shape kind (2 * M + 1 : ℕ) i * hs[i].toReal) (shape kind (2 * M + 1 : ℕ) i * bandTap bands ((i : ℤ) - M))
    refine ⟨q2, by rw [hδ]; linarith, ?_⟩
    rw [abs_mul]
    exact (mul_le_of_le_one_left (abs_nonneg _) s1).trans (hbt _)
  have hcl2 : cs.length = 2 * M + 1 := by rw [g2, hl]
  have hfin : ∀ p ∈ tapsOf cs, p.1.Finite := by
    intro p hp
    obtain ⟨i, hi, rfl⟩ := List.mem_map.1 hp
    exact (hcl i (by rw [← hcl2]; exact List.mem_range.1 hi)).1
  have hwt : weight (exactTaps (tapsOf cs)) ≤ W := by
    rw [exactTaps_tapsOf, hW, ← hcl2, ← List.length_map (f := Fl.toReal)]
    refine weight_tapsOf_le fun i hi => ?_
    rw [List.length_map, hcl2] at hi
    obtain ⟨-, a1, a2⟩ := hcl i hi
    have := abs_sub_abs_le_abs_sub ((cs.map Fl.toReal).getD i 0) (ds.getD i 0)
    linarith
  have htl : (tapsOf cs).length = 2 * M + 1 := by rw [tapsOf, List.length_map, List.length_range, hcl2]
  refine ⟨cs, g1, hcl2, fun σ _ _ s hs' ω => ⟨cosSum (fun k => ds.getD k 0) M ω, ?_, ?_⟩⟩
  · intro t ht1 ht2 he hω
    rw [f4]
    exact band_gain hkind hM hn h ht1 ht2 he hω
  · intro A φ η x y hA hx hov hy n hn'
    have hη : 0 ≤ η := (abs_nonneg _).trans (hx 0).2
    have hWA : weight (exactTaps (tapsOf cs)) * (A + η) ≤ W * (A + η) := mul_le_mul_of_nonneg_right hwt (by linarith)
    obtain ⟨r1, r2⟩ := C155_float_sine hs' hfin hA hx (by rw [htl]; exact hN) (by rw [htl]; linarith) hy (tapsOf_le (by omega) : ∀ p ∈ tapsOf cs, p.2 ≤ n)
    refine ⟨r1, ?_⟩
    rw [← phasor_gain, htl] at r2
    have hrd := delayed_phasor (cosSum (fun k => ds.getD k 0) M ω) ω A φ M n
    rw [← dtft_symmetric f2] at hrd
    have hdiff : |phasor (tapResponse (exactTaps (tapsOf cs)) ω * (A * Complex.exp (φ * Complex.I))) ω n -
        phasor (dtft (2 * M + 1) (fun k => ds.getD k 0) ω * (A * Complex.exp (φ * Complex.I))) ω n| ≤ (2 * M + 1 : ℕ) * δ * A := by
      rw [phasor_sub, ← sub_mul]
      refine (abs_phasor_le _ _ _).trans ?_
      rw [norm_mul, norm_mul, Complex.norm_exp_ofReal_mul_I, mul_one, Complex.norm_real, Real.norm_eq_abs, abs_of_nonneg hA]
      refine mul_le_mul_of_nonneg_right ?_ hA
      rw [exactTaps_tapsOf, tapsOf_response, List.length_map, hcl2]
      exact norm_dtft_sub_le (fun i hi => (hcl i hi).2.1) ω
    rw [← hrd]
    have e1 := abs_sub_le (y n).toReal (phasor (tapResponse (exactTaps (tapsOf cs)) ω * (A * Complex.exp (φ * Complex.I))) ω n)
      (phasor (dtft (2 * M + 1) (fun k => ds.getD k 0) ω * (A * Complex.exp (φ * Complex.I))) ω n)
    have e2 : weight (exactTaps (tapsOf cs)) * η ≤ W * η := mul_le_mul_of_nonneg_right hwt hη
    have e3 : 4 * ((2 * M + 1 : ℕ) : ℝ) * (f.u * (weight (exactTaps (tapsOf cs)) * (A + η)) + f.tiny) ≤ 4 * ((2 * M + 1 : ℕ) : ℝ) * (f.u * (W * (A + η)) + f.tiny) := by
      gcongr
    linarith

/-- In single precision, with a correctly rounded cosine and the ideal response rounded: a Blackman high-pass filter of 65 taps keeps half the sample rate to within one
part in 90. -/
example [Target] (hm : Allocatable (Fl (Libm.roundedCos binary32)) 64) (hn : 65 < usizeMod) : ∃ (hs cs : List (Fl (Libm.roundedCos binary32))),
    applyWindow b hs (.shaped .blackman) = .ok cs ∧ ∃ s : Delay (Fl (Libm.roundedCos binary32)), Delay.new b 0 64 = .ok s ∧
      ∀ y, Gathers b (tapsOf cs) s (fun n => if Even n then one else neg one) y → ∀ n ≥ 64,
        (y n).Finite ∧ |(y n).toReal - Real.cos (Real.pi * (n - (32 : ℕ)))| ≤ 1 / 90 := by
  have hpi := Real.pi_pos
  have hB : bandTotal (highPassBands (Real.pi / 4)) = 2 := by simp [bandTotal, highPassBands]; norm_num
  have hb : ∀ p ∈ highPassBands (Real.pi / 4), 0 ≤ p.2 ∧ p.2 ≤ Real.pi := by
    intro p hp
    simp only [highPassBands, List.mem_cons, List.not_mem_nil, or_false] at hp
    rcases hp with rfl | rfl <;> constructor <;> simp only <;> linarith
  have hv : ∀ i : ℕ, ∃ v : Fl (Libm.roundedCos binary32), v.Finite ∧ |v.toReal - bandTap (highPassBands (Real.pi / 4)) ((i : ℤ) - (32 : ℕ))| ≤ 1 / 2 ^ 22 := by
    intro i
    have a1 := abs_bandTap_le hb ((i : ℤ) - (32 : ℕ))
    rw [hB] at a1
    obtain ⟨b1, b2⟩ := FP.ofReal_of_noOvf (f := binary32) (s := false) (noOvf32 (a1.trans (by norm_num)))
    refine ⟨FP.ofReal binary32 false _, b1, ?_⟩
    change |FP.toReal (FP.ofReal binary32 false _) - _| ≤ _
    rw [b2]
    refine (abs_rnd_sub_le_u _ _).trans ?_
    have c1 : binary32.u = 1 / 2 ^ 24 := by norm_num [Fmt.u, binary32]
    have c2 : binary32.tiny ≤ 1 / 2 ^ 24 := by norm_num [Fmt.tiny, binary32]
    rw [c1]
    norm_num at c2 ⊢
    linarith
  choose v hv1 hv2 using hv
  have hu : binary32.u = 1 / 2 ^ 24 := by norm_num [Fmt.u, binary32]
  have htn : binary32.tiny ≤ 1 / 2 ^ 100 := by norm_num [Fmt.tiny, binary32]
  have htn0 := binary32.tiny_pos
  obtain ⟨cs, h1, hl, h2⟩ := C159_float (b := b) (δ := _) (W := _) binary32_ordinary (Libm.roundedCos_accurate binary32_ordinary) (by norm_num) (by norm_num [hu])
    (kind := .blackman) (.inr rfl) (M := 32) le_rfl hn (by norm_num [hu]) hB hb (ε := 1 / 2 ^ 22) (by norm_num [binary32])
    (hs := (List.range 65).map v) (by simp) (fun i hi => by
      rw [List.getElem_map, List.getElem_range]
      exact ⟨hv1 i, hv2 i⟩) rfl rfl
  have ht : ∀ p ∈ tapsOf cs, p.2 ≤ 64 := tapsOf_le (by omega)
  obtain ⟨s, hs, -⟩ := C116_delay_gather (b := b) (d := 0) hm (tapsOf cs) ht (fun _ => zero)
  obtain ⟨r, h3, h4⟩ := h2 _ s (C155_delay hm ht hs) Real.pi
  obtain ⟨t, ht0⟩ : ∃ t, t = 4 * (2 * Real.pi / (2 * 32 : ℕ)) := ⟨_, rfl⟩
  have ht1 : t = Real.pi / 8 := by rw [ht0]; norm_num; ring
  have hω : |Real.pi| = Real.pi := abs_of_pos hpi
  obtain ⟨k1, -, k2⟩ := (C159_kinds (Ω := Real.pi / 4) (Ω' := 3 * Real.pi / 4) (t := t) (ω := Real.pi) (by linarith) (by linarith) (by linarith) hω.le).1
  have h5 := h3 t ht0.ge (by linarith) (by
    intro p hp
    simp only [highPassBands, List.mem_cons, List.not_mem_nil, or_false] at hp
    rcases hp with rfl | rfl
    · exact .inl rfl
    · right; constructor <;> simp only <;> linarith) ⟨hω.le, by
    intro p hp
    simp only [highPassBands, List.mem_cons, List.not_mem_nil, or_false] at hp
    rcases hp with rfl | rfl
    · exact .inl rfl
    · right; right; rw [hω]; simp only; linarith⟩
  rw [k1, k2 (by linarith), one_mul] at h5
  obtain ⟨-, c1, c2⟩ := C158_ripple (M := 32) le_rfl (t := t) ht0.ge (by linarith)
  refine ⟨_, cs, h1, s, hs, fun y hy n hn' => ?_⟩
  obtain ⟨d1, d2⟩ := h4 1 0 0 _ y zero_le_one alternating_sine (by
    have he : (2 : ℝ) ^ binary32.emax = 2 ^ (127 : ℤ) := rfl
    rw [hu, he]
    norm_num at htn ⊢
    linarith) hy n hn'
  refine ⟨d1, ?_⟩
  rw [one_mul, add_zero] at d2
  have e1 : |r * Real.cos (Real.pi * (n - (32 : ℕ))) - Real.cos (Real.pi * (n - (32 : ℕ)))| ≤ 0.069 / 15 := by
    rw [← sub_one_mul, abs_mul]
    refine (mul_le_of_le_one_right (abs_nonneg _) (Real.abs_cos_le_one _)).trans (h5.trans (c1.trans ?_))
    norm_num at c2 ⊢
    linarith
  have e2 := abs_sub_le (y n).toReal (r * Real.cos (Real.pi * (n - (32 : ℕ)))) (Real.cos (Real.pi * (n - (32 : ℕ))))
  rw [hu] at d2
  refine e2.trans ((add_le_add d2 e1).trans ?_)
  norm_num at htn ⊢
  linarith

end float

end Rasp
