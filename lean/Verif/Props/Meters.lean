import Verif.Props.Detectors
import Verif.Props.WindowSums
import Mathlib.Topology.MetricSpace.Contracting
import Mathlib.Algebra.Order.Chebyshev

/-!
# C110: what the meters read on periodic signals
-/

namespace Rasp
open FloatOps Filter Topology

/-! ## The envelope on its own -/

/-- The envelope of a peak detector, sample by sample. -/
theorem peak_follows {s : PeakEnvDetector ℝ} {b : Build} {x y : ℕ → ℝ} (h : Responds b s x y) :
    ∃ e : ℕ → ℝ, e 0 = s.lastOut ∧ (∀ n, e (n + 1) = followed s.getAttackGain s.getReleaseGain (e n) |x n|) ∧ ∀ n, y n = e (n + 1) := by
  obtain ⟨st, h0, h⟩ := h
  have inv : ∀ n, (st n).attack_gain = s.attack_gain ∧ (st n).release_gain = s.release_gain := by
    intro n
    induction n with
    | zero => rw [h0]; exact ⟨rfl, rfl⟩
    | succ n ih =>
      obtain ⟨k1, -⟩ := Prod.mk.inj (Except.ok.inj (h n))
      rw [← k1]; exact ih
  refine ⟨fun n => (st n).envelope, congrArg PeakEnvDetector.envelope h0, fun n => ?_, fun n => ?_⟩
  · obtain ⟨k1, -⟩ := Prod.mk.inj (Except.ok.inj (h n))
    have := peak_envelope (st n) (x n)
    rw [(inv n).1, (inv n).2] at this
    exact (congrArg PeakEnvDetector.envelope k1).symm.trans this
  · obtain ⟨k1, k2⟩ := Prod.mk.inj (Except.ok.inj (h n))
    show y n = (st (n + 1)).envelope
    rw [← k1, ← k2]

/-- The envelope of an RMS detector, sample by sample. -/
theorem rms_follows {s : RmsEnvDetector ℝ} {b : Build} {x y : ℕ → ℝ} (h : Responds b s x y) :
    ∃ e : ℕ → ℝ, e 0 = s.envelope ∧ (∀ n, e (n + 1) = followed s.getAttackGain s.getReleaseGain (e n) (x n ^ 2)) ∧ ∀ n, y n = Real.sqrt (e (n + 1)) := by
  obtain ⟨st, h0, h⟩ := h
  have inv : ∀ n, (st n).attack_gain = s.attack_gain ∧ (st n).release_gain = s.release_gain := by
    intro n
    induction n with
    | zero => rw [h0]; exact ⟨rfl, rfl⟩
    | succ n ih =>
      obtain ⟨k1, -⟩ := Prod.mk.inj (Except.ok.inj (h n))
      rw [← k1]; exact ih
  refine ⟨fun n => (st n).envelope, congrArg RmsEnvDetector.envelope h0, fun n => ?_, fun n => ?_⟩
  · obtain ⟨k1, -⟩ := Prod.mk.inj (Except.ok.inj (h n))
    have := rms_envelope (st n) (x n)
    rw [(inv n).1, (inv n).2] at this
    exact (congrArg RmsEnvDetector.envelope k1).symm.trans this
  · obtain ⟨k1, k2⟩ := Prod.mk.inj (Except.ok.inj (h n))
    show y n = Real.sqrt (st (n + 1)).envelope
    rw [← k1, ← k2]; rfl

theorem followed_nonneg {a r e i : ℝ} (ha : a ∈ Set.Icc (0 : ℝ) 1) (hr : r ∈ Set.Icc (0 : ℝ) 1) (he : 0 ≤ e) (hi : 0 ≤ i) : 0 ≤ followed a r e i := by
  obtain ⟨a0, a1⟩ := ha
  obtain ⟨r0, r1⟩ := hr
  unfold followed
  split_ifs <;> nlinarith

/-- A periodic level has exactly one periodic envelope. -/
theorem exists_periodic_envelope {a r : ℝ} (ha : a ∈ Set.Ico (0 : ℝ) 1) (hr : r ∈ Set.Ico (0 : ℝ) 1) {N : ℕ} (hN : 0 < N) {i : ℕ → ℝ}
    (hi : ∀ n, i (n + N) = i n) : ∃ E : ℕ → ℝ, (∀ n, E (n + N) = E n) ∧ ∀ n, E (n + 1) = followed a r (E n) (i n) := by
  obtain ⟨g, hg⟩ : ∃ g, g = max a r := ⟨_, rfl⟩
  have g0 : 0 ≤ g := by rw [hg]; exact ha.1.trans (le_max_left _ _)
  have g1 : g < 1 := by rw [hg]; exact max_lt ha.2 hr.2
  have ha' : a ∈ Set.Icc 0 g := ⟨ha.1, by rw [hg]; exact le_max_left _ _⟩
  have hr' : r ∈ Set.Icc 0 g := ⟨hr.1, by rw [hg]; exact le_max_right _ _⟩
  let run : ℝ → ℕ → ℝ := fun e n => Nat.rec e (fun n e => followed a r e (i n)) n
  have hrun : ∀ e e' n, |run e n - run e' n| ≤ g ^ n * |e - e'| := by
    intro e e' n
    induction n with
    | zero => simp [run]
    | succ n ih =>
      have := followed_contracts ha' hr' (run e n) (run e' n) (i n)
      calc |run e (n + 1) - run e' (n + 1)| ≤ g * |run e n - run e' n| := this
        _ ≤ g * (g ^ n * |e - e'|) := mul_le_mul_of_nonneg_left ih g0
        _ = _ := by ring
  have hc : ContractingWith ⟨g, g0⟩ (fun e => run e N) := by
    refine ⟨by exact_mod_cast g1, LipschitzWith.of_dist_le_mul fun e e' => ?_⟩
    rw [Real.dist_eq, Real.dist_eq]
    refine (hrun e e' N).trans (mul_le_mul_of_nonneg_right ?_ (abs_nonneg _))
    calc g ^ N ≤ g ^ 1 := pow_le_pow_of_le_one g0 g1.le hN
      _ = g := pow_one g
  obtain ⟨e, he⟩ : ∃ e, run e N = e := ⟨_, hc.fixedPoint_isFixedPt⟩
  refine ⟨run e, fun n => ?_, fun n => rfl⟩
  induction n with
  | zero => rw [zero_add]; exact he
  | succ n ih =>
    show run e (n + 1 + N) = followed a r (run e n) (i n)
    rw [show n + 1 + N = (n + N) + 1 by ring]
    show followed a r (run e (n + N)) (i (n + N)) = _
    rw [ih, hi]

/-- Two envelopes of the same level come together. -/
theorem envelopes_meet {a r : ℝ} (ha : a ∈ Set.Ico (0 : ℝ) 1) (hr : r ∈ Set.Ico (0 : ℝ) 1) {i e E : ℕ → ℝ}
    (he : ∀ n, e (n + 1) = followed a r (e n) (i n)) (hE : ∀ n, E (n + 1) = followed a r (E n) (i n)) :
    Tendsto (fun n => e n - E n) atTop (𝓝 0) := by
  obtain ⟨g, hg⟩ : ∃ g, g = max a r := ⟨_, rfl⟩
  have g0 : 0 ≤ g := by rw [hg]; exact ha.1.trans (le_max_left _ _)
  have g1 : g < 1 := by rw [hg]; exact max_lt ha.2 hr.2
  have ha' : a ∈ Set.Icc 0 g := ⟨ha.1, by rw [hg]; exact le_max_left _ _⟩
  have hr' : r ∈ Set.Icc 0 g := ⟨hr.1, by rw [hg]; exact le_max_right _ _⟩
  have hb : ∀ n, |e n - E n| ≤ g ^ n * |e 0 - E 0| := by
    intro n
    induction n with
    | zero => simp
    | succ n ih =>
      rw [he, hE]
      calc _ ≤ g * |e n - E n| := followed_contracts ha' hr' _ _ _
        _ ≤ g * (g ^ n * |e 0 - E 0|) := mul_le_mul_of_nonneg_left ih g0
        _ = _ := by ring
  refine squeeze_zero_norm (fun n => hb n) ?_
  simpa using (tendsto_pow_atTop_nhds_zero_of_lt_one g0 g1).mul_const |e 0 - E 0|

theorem sum_shift {E : ℕ → ℝ} {N : ℕ} (hE : ∀ n, E (n + N) = E n) : ∑ n ∈ Finset.range N, E (n + 1) = ∑ n ∈ Finset.range N, E n := by
  have h1 := Finset.sum_range_succ E N
  have h2 := Finset.sum_range_succ' E N
  have := hE 0
  rw [zero_add] at this
  linarith

/-- In the steady state the excess above the level, weighted by `1 - r`, balances what is missing below it, weighted by `1 - a`. -/
theorem envelope_balance {a r : ℝ} {N : ℕ} {i E : ℕ → ℝ} (hE : ∀ n, E (n + 1) = followed a r (E n) (i n)) (hp : ∀ n, E (n + N) = E n) :
    (1 - r) * ∑ n ∈ Finset.range N, max 0 (E n - i n) = (1 - a) * ∑ n ∈ Finset.range N, max 0 (i n - E n) := by
  have h1 : ∀ n, E (n + 1) - E n = (1 - a) * max 0 (i n - E n) - (1 - r) * max 0 (E n - i n) := by
    intro n
    rw [hE]
    unfold followed
    split_ifs with h
    · rw [max_eq_right (by linarith), max_eq_left (by linarith)]; ring
    · rw [max_eq_left (by linarith), max_eq_right (by linarith)]; ring
  have h2 : ∑ n ∈ Finset.range N, (E (n + 1) - E n) = 0 := by rw [Finset.sum_sub_distrib, sum_shift hp, sub_self]
  simp only [h1, Finset.sum_sub_distrib, ← Finset.mul_sum] at h2
  linarith

theorem envelope_mean {a r : ℝ} {N : ℕ} {i E : ℕ → ℝ} (hE : ∀ n, E (n + 1) = followed a r (E n) (i n)) (hp : ∀ n, E (n + N) = E n) :
    (1 - r) * ∑ n ∈ Finset.range N, (E n - i n) = (r - a) * ∑ n ∈ Finset.range N, max 0 (i n - E n) := by
  have h := envelope_balance hE hp
  have : ∑ n ∈ Finset.range N, (E n - i n) = ∑ n ∈ Finset.range N, max 0 (E n - i n) - ∑ n ∈ Finset.range N, max 0 (i n - E n) := by
    rw [← Finset.sum_sub_distrib]
    refine Finset.sum_congr rfl fun n _ => ?_
    rcases le_total (E n) (i n) with h | h
    · rw [max_eq_left (by linarith), max_eq_right (by linarith)]; ring
    · rw [max_eq_right (by linarith), max_eq_left (by linarith)]; ring
  rw [this]
  linarith

/-- What is missing below the level is zero only for a constant level. -/
theorem deficit_pos {a r : ℝ} (hr : r < 1) {N : ℕ} {i E : ℕ → ℝ} (hE : ∀ n, E (n + 1) = followed a r (E n) (i n))
    (hp : ∀ n, E (n + N) = E n) (hi : ∃ n < N, i n ≠ i 0) : 0 < ∑ n ∈ Finset.range N, max 0 (i n - E n) := by
  have h0 : 0 ≤ ∑ n ∈ Finset.range N, max 0 (i n - E n) := Finset.sum_nonneg fun n _ => le_max_left _ _
  rcases h0.lt_or_eq with h | h
  · exact h
  exfalso
  have hb := envelope_balance hE hp
  rw [← h, mul_zero] at hb
  have hb := (mul_eq_zero.mp hb).resolve_left (by linarith)
  rw [Finset.sum_eq_zero_iff_of_nonneg fun n _ => le_max_left _ _] at hb
  have h := h.symm
  rw [Finset.sum_eq_zero_iff_of_nonneg fun n _ => le_max_left _ _] at h
  have heq : ∀ n, n < N → E n = i n := by
    intro n hn
    have h1 := hb n (Finset.mem_range.mpr hn)
    have h2 := h n (Finset.mem_range.mpr hn)
    have h1 : E n - i n ≤ 0 := h1 ▸ le_max_right _ _
    have h2 : i n - E n ≤ 0 := h2 ▸ le_max_right _ _
    linarith
  have hc : ∀ n, n < N → E n = E 0 := by
    intro n
    induction n with
    | zero => intro _; rfl
    | succ n ih =>
      intro hn
      rw [hE, heq n (by omega)]
      have := ih (by omega)
      rw [heq n (by omega)] at this
      unfold followed
      simp [this]
  obtain ⟨n, hn, hne⟩ := hi
  exact hne (by rw [← heq n hn, hc n hn, heq 0 (by omega)])

/-! ## Periodic signals -/

/-- **C110.** On a signal of period `N` a peak detector settles to readings of period `N`, the same from every past. Their mean is
at least the mean of the magnitudes if the attack is not slower than the release and at most that if it is not faster (so equal if they are equal),
and different from it otherwise, unless the magnitude is constant. -/
theorem C110_peak_periodic {a r : ℝ} (ha : a ∈ Set.Ico (0 : ℝ) 1) (hr : r ∈ Set.Ico (0 : ℝ) 1) {N : ℕ} (hN : 0 < N) {x : ℕ → ℝ}
    (hx : ∀ n, x (n + N) = x n) : ∃ Y : ℕ → ℝ, (∀ n, Y (n + N) = Y n) ∧
      (∀ (b : Build) (s : PeakEnvDetector ℝ) (y : ℕ → ℝ), s.getAttackGain = a → s.getReleaseGain = r → Responds b s x y →
        Tendsto (fun n => y n - Y n) atTop (𝓝 0)) ∧
      (a ≤ r → ∑ n ∈ Finset.range N, |x n| ≤ ∑ n ∈ Finset.range N, Y n) ∧ (r ≤ a → ∑ n ∈ Finset.range N, Y n ≤ ∑ n ∈ Finset.range N, |x n|) ∧
      ((∃ n < N, |x n| ≠ |x 0|) → (a < r → ∑ n ∈ Finset.range N, |x n| < ∑ n ∈ Finset.range N, Y n) ∧
        (r < a → ∑ n ∈ Finset.range N, Y n < ∑ n ∈ Finset.range N, |x n|)) := by
  obtain ⟨E, h1, h2⟩ := exists_periodic_envelope ha hr hN (i := fun n => |x n|) (fun n => by rw [hx])
  have hm := envelope_mean h2 h1
  rw [Finset.sum_sub_distrib] at hm
  have r1 : 0 < 1 - r := by linarith [hr.2]
  refine ⟨fun n => E (n + 1), fun n => by simp only [show n + N + 1 = n + 1 + N by ring, h1], fun b s y e1 e2 hy => ?_, fun e => ?_, fun e => ?_, fun hne => ?_⟩
  · obtain ⟨e, -, k1, k2⟩ := peak_follows hy
    rw [e1, e2] at k1
    have := (envelopes_meet ha hr k1 h2).comp (tendsto_add_atTop_nat 1)
    refine this.congr fun n => ?_
    rw [k2]; rfl
  · rw [sum_shift h1]
    have hd : 0 ≤ ∑ n ∈ Finset.range N, max 0 (|x n| - E n) := Finset.sum_nonneg fun n _ => le_max_left _ _
    have := hm ▸ mul_nonneg (sub_nonneg.mpr e) hd
    have := nonneg_of_mul_nonneg_right this r1
    linarith
  · rw [sum_shift h1]
    have hd : 0 ≤ ∑ n ∈ Finset.range N, max 0 (|x n| - E n) := Finset.sum_nonneg fun n _ => le_max_left _ _
    have := hm ▸ mul_nonpos_of_nonpos_of_nonneg (sub_nonpos.mpr e) hd
    have := nonpos_of_mul_nonpos_right this r1
    linarith
  · rw [sum_shift h1]
    have hd := deficit_pos hr.2 h2 h1 hne
    refine ⟨fun h => ?_, fun h => ?_⟩
    · have : 0 < (r - a) * ∑ n ∈ Finset.range N, max 0 (|x n| - E n) := mul_pos (by linarith) hd
      rw [← hm] at this
      have := pos_of_mul_pos_right this r1.le
      linarith
    · have : (r - a) * ∑ n ∈ Finset.range N, max 0 (|x n| - E n) < 0 := mul_neg_of_neg_of_pos (by linarith) hd
      rw [← hm] at this
      have := neg_of_mul_neg_right this r1.le
      linarith

/-- **C110.** The same for the RMS detector and the squares. -/
theorem C110_rms_periodic {a r : ℝ} (ha : a ∈ Set.Ico (0 : ℝ) 1) (hr : r ∈ Set.Ico (0 : ℝ) 1) {N : ℕ} (hN : 0 < N) {x : ℕ → ℝ}
    (hx : ∀ n, x (n + N) = x n) : ∃ Y : ℕ → ℝ, (∀ n, Y (n + N) = Y n) ∧ (∀ n, 0 ≤ Y n) ∧
      (∀ (b : Build) (s : RmsEnvDetector ℝ) (y : ℕ → ℝ), s.getAttackGain = a → s.getReleaseGain = r → 0 ≤ s.envelope → Responds b s x y →
        Tendsto (fun n => y n ^ 2 - Y n ^ 2) atTop (𝓝 0)) ∧
      (a ≤ r → ∑ n ∈ Finset.range N, x n ^ 2 ≤ ∑ n ∈ Finset.range N, Y n ^ 2) ∧ (r ≤ a → ∑ n ∈ Finset.range N, Y n ^ 2 ≤ ∑ n ∈ Finset.range N, x n ^ 2) ∧
      ((∃ n < N, x n ^ 2 ≠ x 0 ^ 2) → (a < r → ∑ n ∈ Finset.range N, x n ^ 2 < ∑ n ∈ Finset.range N, Y n ^ 2) ∧
        (r < a → ∑ n ∈ Finset.range N, Y n ^ 2 < ∑ n ∈ Finset.range N, x n ^ 2)) := by
  obtain ⟨E, h1, h2⟩ := exists_periodic_envelope ha hr hN (i := fun n => x n ^ 2) (fun n => by rw [hx])
  have ha' : a ∈ Set.Icc (0 : ℝ) 1 := ⟨ha.1, ha.2.le⟩
  have hr' : r ∈ Set.Icc (0 : ℝ) 1 := ⟨hr.1, hr.2.le⟩
  have hE0 : ∀ n, 0 ≤ E n := by
    intro n
    by_contra hneg
    push Not at hneg
    let e : ℕ → ℝ := fun n => Nat.rec 0 (fun n e => followed a r e (x n ^ 2)) n
    have he : ∀ n, 0 ≤ e n := by
      intro n
      induction n with
      | zero => exact le_rfl
      | succ n ih => exact followed_nonneg ha' hr' ih (sq_nonneg _)
    have hl := envelopes_meet ha hr (i := fun n => x n ^ 2) (e := e) (fun _ => rfl) h2
    have hsub : Tendsto (fun k : ℕ => n + k * N) atTop atTop :=
      tendsto_atTop_mono (fun k => (Nat.le_mul_of_pos_right k hN).trans (Nat.le_add_left _ n)) tendsto_id
    have hl := hl.comp hsub
    have hper : ∀ k, E (n + k * N) = E n := by
      intro k
      induction k with
      | zero => simp
      | succ k ih => rw [Nat.succ_mul, ← add_assoc, h1, ih]
    have : -E n ≤ 0 := ge_of_tendsto' hl fun k => by
      show -E n ≤ e (n + k * N) - E (n + k * N)
      rw [hper]; linarith [he (n + k * N)]
    linarith
  have hm := envelope_mean h2 h1
  rw [Finset.sum_sub_distrib] at hm
  have r1 : 0 < 1 - r := by linarith [hr.2]
  have hsq : ∀ n, Real.sqrt (E n) ^ 2 = E n := fun n => Real.sq_sqrt (hE0 n)
  refine ⟨fun n => Real.sqrt (E (n + 1)), fun n => by simp only [show n + N + 1 = n + 1 + N by ring, h1], fun n => Real.sqrt_nonneg _,
    fun b s y e1 e2 e3 hy => ?_, fun e => ?_, fun e => ?_, fun hne => ?_⟩
  · obtain ⟨e, k0, k1, k2⟩ := rms_follows hy
    rw [e1, e2] at k1
    have hen : ∀ n, 0 ≤ e n := by
      intro n
      induction n with
      | zero => rw [k0]; exact e3
      | succ n ih => rw [k1]; exact followed_nonneg ha' hr' ih (sq_nonneg _)
    have := (envelopes_meet ha hr k1 h2).comp (tendsto_add_atTop_nat 1)
    refine this.congr fun n => ?_
    rw [k2, hsq, Real.sq_sqrt (hen _)]; rfl
  · simp only [hsq]
    rw [sum_shift h1]
    have hd : 0 ≤ ∑ n ∈ Finset.range N, max 0 (x n ^ 2 - E n) := Finset.sum_nonneg fun n _ => le_max_left _ _
    have := hm ▸ mul_nonneg (sub_nonneg.mpr e) hd
    have := nonneg_of_mul_nonneg_right this r1
    linarith
  · simp only [hsq]
    rw [sum_shift h1]
    have hd : 0 ≤ ∑ n ∈ Finset.range N, max 0 (x n ^ 2 - E n) := Finset.sum_nonneg fun n _ => le_max_left _ _
    have := hm ▸ mul_nonpos_of_nonpos_of_nonneg (sub_nonpos.mpr e) hd
    have := nonpos_of_mul_nonpos_right this r1
    linarith
  · simp only [hsq]
    rw [sum_shift h1]
    have hd := deficit_pos hr.2 h2 h1 hne
    refine ⟨fun h => ?_, fun h => ?_⟩
    · have : 0 < (r - a) * ∑ n ∈ Finset.range N, max 0 (x n ^ 2 - E n) := mul_pos (by linarith) hd
      rw [← hm] at this
      have := pos_of_mul_pos_right this r1.le
      linarith
    · have : (r - a) * ∑ n ∈ Finset.range N, max 0 (x n ^ 2 - E n) < 0 := mul_neg_of_neg_of_pos (by linarith) hd
      rw [← hm] at this
      have := neg_of_mul_neg_right this r1.le
      linarith

/-! ## Sinusoids -/

/-- The response of the smoother `e ↦ i + g (e - i)` to a cosine. -/
noncomputable def smoothCos (g θ ψ n : ℝ) : ℝ := (1 - g) * (Real.cos (θ * n + ψ) - g * Real.cos (θ * (n + 1) + ψ)) / (1 - 2 * g * Real.cos θ + g ^ 2)

theorem smooth_denom_pos {g θ : ℝ} (hg : g ∈ Set.Ico (0 : ℝ) 1) : 0 < 1 - 2 * g * Real.cos θ + g ^ 2 := by
  have := Real.cos_le_one θ
  nlinarith [hg.1, hg.2, mul_nonneg hg.1 (sub_nonneg.mpr this), sq_pos_of_pos (sub_pos.mpr hg.2)]

theorem smoothCos_step {g : ℝ} (hg : g ∈ Set.Ico (0 : ℝ) 1) (θ ψ n : ℝ) :
    smoothCos g θ ψ (n + 1) = Real.cos (θ * (n + 1) + ψ) + g * (smoothCos g θ ψ n - Real.cos (θ * (n + 1) + ψ)) := by
  have hD := smooth_denom_pos (θ := θ) hg
  unfold smoothCos
  have e1 : Real.cos (θ * (n + 1 + 1) + ψ) + Real.cos (θ * n + ψ) = 2 * Real.cos θ * Real.cos (θ * (n + 1) + ψ) := by
    rw [show θ * (n + 1 + 1) + ψ = (θ * (n + 1) + ψ) + θ by ring, show θ * n + ψ = (θ * (n + 1) + ψ) - θ by ring, Real.cos_add, Real.cos_sub]
    ring
  have e2 : Real.cos (θ * (n + 1 + 1) + ψ) = 2 * Real.cos θ * Real.cos (θ * (n + 1) + ψ) - Real.cos (θ * n + ψ) := by linarith
  rw [e2]
  obtain ⟨D, hDe⟩ : ∃ D, D = 1 - 2 * g * Real.cos θ + g ^ 2 := ⟨_, rfl⟩
  rw [← hDe] at hD ⊢
  have hc : 2 * (g * Real.cos θ) = 1 + g ^ 2 - D := by rw [hDe]; ring
  obtain ⟨p, hp⟩ : ∃ p, p = (1 - g) * (Real.cos (θ * n + ψ) - g * Real.cos (θ * (n + 1) + ψ)) / D := ⟨_, rfl⟩
  have hp' : p * D = (1 - g) * (Real.cos (θ * n + ψ) - g * Real.cos (θ * (n + 1) + ψ)) := by rw [hp, div_mul_cancel₀ _ hD.ne']
  rw [← hp, div_eq_iff hD.ne']
  linear_combination (-(1 - g) * Real.cos (θ * (n + 1) + ψ)) * hc - g * hp'

/-- The size of that response. -/
theorem abs_smoothCos_le {g : ℝ} (hg : g ∈ Set.Ico (0 : ℝ) 1) (θ ψ n : ℝ) :
    |smoothCos g θ ψ n| ≤ (1 - g) / Real.sqrt (1 - 2 * g * Real.cos θ + g ^ 2) := by
  have hD := smooth_denom_pos (θ := θ) hg
  obtain ⟨D, hDe⟩ : ∃ D, D = 1 - 2 * g * Real.cos θ + g ^ 2 := ⟨_, rfl⟩
  have hg1 : 0 < 1 - g := by linarith [hg.2]
  unfold smoothCos
  rw [← hDe] at hD ⊢
  have hs := Real.sqrt_pos.mpr hD
  have key : (Real.cos (θ * n + ψ) - g * Real.cos (θ * (n + 1) + ψ)) ^ 2 ≤ D := by
    obtain ⟨v, hv⟩ : ∃ v, v = θ * n + ψ := ⟨_, rfl⟩
    rw [show θ * (n + 1) + ψ = (θ * n + ψ) + θ by ring, ← hv, Real.cos_add, hDe]
    have h1 := Real.sin_sq_add_cos_sq v
    have h2 := Real.sin_sq_add_cos_sq θ
    have : 1 - 2 * g * Real.cos θ + g ^ 2 - (Real.cos v - g * (Real.cos v * Real.cos θ - Real.sin v * Real.sin θ)) ^ 2 =
        (Real.sin v * (1 - g * Real.cos θ) - Real.cos v * (g * Real.sin θ)) ^ 2 := by
      linear_combination (-(1 - g * Real.cos θ) ^ 2 - g ^ 2 * Real.sin θ ^ 2) * h1 - g ^ 2 * h2
    nlinarith [sq_nonneg (Real.sin v * (1 - g * Real.cos θ) - Real.cos v * (g * Real.sin θ))]
  have key' : |Real.cos (θ * n + ψ) - g * Real.cos (θ * (n + 1) + ψ)| ≤ Real.sqrt D := Real.abs_le_sqrt key
  rw [abs_div, abs_of_pos hD, abs_mul, abs_of_pos hg1, div_le_div_iff₀ hD hs]
  calc (1 - g) * |Real.cos (θ * n + ψ) - g * Real.cos (θ * (n + 1) + ψ)| * Real.sqrt D ≤ (1 - g) * Real.sqrt D * Real.sqrt D := by gcongr
    _ = (1 - g) * D := by rw [mul_assoc, Real.mul_self_sqrt hD.le]

private theorem smooth_sine {g : ℝ} (hg : g ∈ Set.Ico (0 : ℝ) 1) {A w φ : ℝ} {e : ℕ → ℝ}
    (he : ∀ n : ℕ, e (n + 1) = (A * Real.sin (w * n + φ)) ^ 2 + g * (e n - (A * Real.sin (w * n + φ)) ^ 2)) (n : ℕ) :
    e n - A ^ 2 / 2 * (1 - smoothCos g (2 * w) (2 * φ) (n - 1)) = g ^ n * (e 0 - A ^ 2 / 2 * (1 - smoothCos g (2 * w) (2 * φ) (-1))) := by
  induction n with
  | zero => simp
  | succ n ih =>
    have hs := smoothCos_step hg (2 * w) (2 * φ) (n - 1)
    rw [sub_add_cancel] at hs
    have hsin : (A * Real.sin (w * n + φ)) ^ 2 = A ^ 2 / 2 * (1 - Real.cos (2 * w * n + 2 * φ)) := by
      rw [show 2 * w * n + 2 * φ = 2 * (w * n + φ) by ring, Real.cos_two_mul, mul_pow, Real.sin_sq]; ring
    rw [he, hsin]
    push_cast
    rw [add_sub_cancel_right, hs, pow_succ g]
    linear_combination g * ih

/-- **C110.** An RMS detector with equal gains on a sinusoid of amplitude `A`: the square of the reading is `A²/2`, with a ripple at twice the
frequency that is known exactly, and what is left of the past. -/
theorem C110_rms_sine {g : ℝ} (hg : g ∈ Set.Ico (0 : ℝ) 1) {s : RmsEnvDetector ℝ} (ha : s.getAttackGain = g) (hr : s.getReleaseGain = g)
    (h0 : 0 ≤ s.envelope) (b : Build) (A w φ : ℝ) : ∃ y, Responds b s (fun n => A * Real.sin (w * n + φ)) y ∧
      (∃ c, ∀ n : ℕ, y n ^ 2 = A ^ 2 / 2 * (1 - (1 - g) * (Real.cos (2 * w * n + 2 * φ) - g * Real.cos (2 * w * (n + 1) + 2 * φ)) /
        (1 - 2 * g * Real.cos (2 * w) + g ^ 2)) + c * g ^ n) ∧ ∀ n : ℕ,
      |y n ^ 2 - A ^ 2 / 2| ≤ A ^ 2 / 2 * ((1 - g) / Real.sqrt (1 - 2 * g * Real.cos (2 * w) + g ^ 2)) + g ^ (n + 1) * (s.lastOut ^ 2 + A ^ 2) := by
  obtain ⟨y, hy⟩ := NeverPanics.responds rms_never b s (fun n => A * Real.sin (w * n + φ))
  obtain ⟨e, k0, k1, k2⟩ := rms_follows hy
  rw [ha, hr] at k1
  have hen : ∀ n, 0 ≤ e n := by
    intro n
    induction n with
    | zero => rw [k0]; exact h0
    | succ n ih => rw [k1]; exact followed_nonneg ⟨hg.1, hg.2.le⟩ ⟨hg.1, hg.2.le⟩ ih (sq_nonneg _)
  have k3 := smooth_sine hg (A := A) (w := w) (φ := φ) (e := e) (fun n => by rw [k1]; unfold followed; split <;> rfl)
  refine ⟨y, hy, ⟨g * (e 0 - A ^ 2 / 2 * (1 - smoothCos g (2 * w) (2 * φ) (-1))), fun n => ?_⟩, fun n => ?_⟩
  · have := k3 (n + 1)
    rw [k2, Real.sq_sqrt (hen _)]
    push_cast at this
    rw [add_sub_cancel_right] at this
    rw [sub_eq_iff_eq_add] at this
    rw [this, add_comm, pow_succ]
    unfold smoothCos
    ring
  have k3 := k3 (n + 1)
  have hl : s.lastOut ^ 2 = s.envelope := Real.sq_sqrt h0
  rw [k2, Real.sq_sqrt (hen _), hl]
  have b1 := abs_smoothCos_le hg (2 * w) (2 * φ) (((n + 1 : ℕ) : ℝ) - 1)
  have b2 := abs_smoothCos_le hg (2 * w) (2 * φ) (-1)
  have b3 : (1 - g) / Real.sqrt (1 - 2 * g * Real.cos (2 * w) + g ^ 2) ≤ 1 := by
    have hD := smooth_denom_pos (θ := 2 * w) hg
    rw [div_le_one (Real.sqrt_pos.mpr hD)]
    refine Real.le_sqrt_of_sq_le ?_
    nlinarith [Real.cos_le_one (2 * w), hg.1, mul_nonneg hg.1 (sub_nonneg.mpr (Real.cos_le_one (2 * w)))]
  obtain ⟨S, hS⟩ : ∃ S, S = smoothCos g (2 * w) (2 * φ) (((n + 1 : ℕ) : ℝ) - 1) := ⟨_, rfl⟩
  obtain ⟨S0, hS0⟩ : ∃ S, S = smoothCos g (2 * w) (2 * φ) (-1) := ⟨_, rfl⟩
  obtain ⟨R, hR⟩ : ∃ R, R = (1 - g) / Real.sqrt (1 - 2 * g * Real.cos (2 * w) + g ^ 2) := ⟨_, rfl⟩
  rw [← hS] at b1 k3
  rw [← hS0] at b2 k3
  rw [← hR] at b1 b2 b3 ⊢
  rw [k0] at k3
  have hA : 0 ≤ A ^ 2 / 2 := by positivity
  have c1 : |A ^ 2 / 2 * S| ≤ A ^ 2 / 2 * R := by rw [abs_mul, abs_of_nonneg hA]; exact mul_le_mul_of_nonneg_left b1 hA
  have c2 : |s.envelope - A ^ 2 / 2 * (1 - S0)| ≤ s.envelope + A ^ 2 := by
    have b2 := abs_le.mp (b2.trans b3)
    rw [abs_le]; constructor <;> nlinarith
  have c3 : |g ^ (n + 1) * (s.envelope - A ^ 2 / 2 * (1 - S0))| ≤ g ^ (n + 1) * (s.envelope + A ^ 2) := by
    have : 0 ≤ g ^ (n + 1) := pow_nonneg hg.1 _
    rw [abs_mul, abs_of_nonneg this]; exact mul_le_mul_of_nonneg_left c2 this
  rw [abs_le] at c1 c3 ⊢
  constructor <;> nlinarith [c1.1, c1.2, c3.1, c3.2]

theorem sum_sine_sq {N k : ℕ} (hN : 0 < N) (hk : ¬ N ∣ 2 * k) (A : ℝ) :
    ∑ n ∈ Finset.range N, (A * Real.sin (2 * Real.pi * k * n / N)) ^ 2 = N * (A ^ 2 / 2) := by
  have h := sum_cos hN hk
  have : ∀ n : ℕ, (A * Real.sin (2 * Real.pi * k * n / N)) ^ 2 = A ^ 2 / 2 - A ^ 2 / 2 * Real.cos ((2 * k : ℕ) * (2 * Real.pi * n / N)) := fun n => by
    rw [show ((2 * k : ℕ) : ℝ) * (2 * Real.pi * n / N) = 2 * (2 * Real.pi * k * n / N) by push_cast; ring, Real.cos_two_mul, mul_pow, Real.sin_sq]
    ring
  simp only [this]
  rw [Finset.sum_sub_distrib, ← Finset.mul_sum, h, mul_zero, sub_zero, Finset.sum_const, Finset.card_range, nsmul_eq_mul]

/-- **C110.** A peak detector whose attack is not faster than its release does not read the peak: on a sinusoid with `k` periods in `N` samples
the mean of its settled readings is at most `|A|/√2`. -/
theorem C110_peak_reads_low {a r : ℝ} (ha : a ∈ Set.Ico (0 : ℝ) 1) (hr : r ∈ Set.Icc (0 : ℝ) a) {N k : ℕ} (hN : 0 < N) (hk : ¬ N ∣ 2 * k) (A : ℝ) :
    ∃ Y : ℕ → ℝ, (∀ n, Y (n + N) = Y n) ∧
      (∀ (b : Build) (s : PeakEnvDetector ℝ) (y : ℕ → ℝ), s.getAttackGain = a → s.getReleaseGain = r →
        Responds b s (fun n => A * Real.sin (2 * Real.pi * k * n / N)) y → Tendsto (fun n => y n - Y n) atTop (𝓝 0)) ∧
      (∑ n ∈ Finset.range N, Y n) / N ≤ |A| / Real.sqrt 2 := by
  have hN' : (0 : ℝ) < N := by exact_mod_cast hN
  obtain ⟨Y, h1, h2, -, h3, -⟩ := C110_peak_periodic ha ⟨hr.1, hr.2.trans_lt ha.2⟩ hN (x := fun n => A * Real.sin (2 * Real.pi * k * n / N)) (fun n => by
    have : 2 * Real.pi * k * ((n + N : ℕ) : ℝ) / N = 2 * Real.pi * k * n / N + k * (2 * Real.pi) := by push_cast; field_simp
    rw [this, Real.sin_add_nat_mul_two_pi])
  refine ⟨Y, h1, h2, ?_⟩
  have hle : ∑ n ∈ Finset.range N, Y n ≤ ∑ n ∈ Finset.range N, |A * Real.sin (2 * Real.pi * k * n / N)| := h3 hr.2
  have hcs := sq_sum_le_card_mul_sum_sq (s := Finset.range N) (f := fun n : ℕ => |A * Real.sin (2 * Real.pi * k * n / N)|)
  simp only [sq_abs, Finset.card_range] at hcs
  rw [sum_sine_sq hN hk] at hcs
  have hS : ∑ n ∈ Finset.range N, |A * Real.sin (2 * Real.pi * k * n / N)| ≤ N * (|A| / Real.sqrt 2) := by
    refine abs_le_of_sq_le_sq' ?_ (by positivity) |>.2
    rw [mul_pow, div_pow, Real.sq_sqrt (by norm_num), sq_abs]
    linarith
  rw [div_le_iff₀ hN']
  linarith

/-- Every `N ≥ π/w` samples in a row of a sinusoid contain one of at least `cos (w/2)` times the amplitude. -/
theorem sine_near_peak {A w φ : ℝ} (hw : 0 < w) (hw' : w ≤ Real.pi) {N : ℕ} (hN : Real.pi / w ≤ N) (n : ℕ) :
    ∃ k < N, |A| * Real.cos (w / 2) ≤ |A * Real.sin (w * (n + k : ℕ) + φ)| := by
  have hpi := Real.pi_pos
  obtain ⟨θ, hθ⟩ : ∃ θ, θ = w * n + φ := ⟨_, rfl⟩
  obtain ⟨j, hj⟩ : ∃ j : ℤ, j = ⌈(θ - w / 2 - Real.pi / 2) / Real.pi⌉ := ⟨_, rfl⟩
  have j1 : θ - w / 2 ≤ Real.pi / 2 + j * Real.pi := by
    have := Int.le_ceil ((θ - w / 2 - Real.pi / 2) / Real.pi)
    rw [← hj, div_le_iff₀ hpi] at this
    linarith
  have j2 : Real.pi / 2 + j * Real.pi < θ - w / 2 + Real.pi := by
    have := Int.ceil_lt_add_one ((θ - w / 2 - Real.pi / 2) / Real.pi)
    rw [← hj, ← sub_lt_iff_lt_add, lt_div_iff₀ hpi] at this
    linarith
  obtain ⟨t, ht⟩ : ∃ t, t = Real.pi / 2 + j * Real.pi := ⟨_, rfl⟩
  rw [← ht] at j1 j2
  have v0 : 0 ≤ (t - θ) / w + 1 / 2 := by
    rw [div_add' _ _ _ hw.ne']
    exact div_nonneg (by linarith) hw.le
  have v1 : (t - θ) / w + 1 / 2 < N := by
    refine lt_of_lt_of_le ?_ hN
    rw [div_add' _ _ _ hw.ne']
    exact div_lt_div_of_pos_right (by linarith) hw
  refine ⟨⌊(t - θ) / w + 1 / 2⌋₊, (Nat.floor_lt v0).mpr v1, ?_⟩
  obtain ⟨k, hk⟩ : ∃ k, k = ⌊(t - θ) / w + 1 / 2⌋₊ := ⟨_, rfl⟩
  have f1 := Nat.floor_le v0
  have f2 := Nat.lt_floor_add_one ((t - θ) / w + 1 / 2)
  rw [← hk] at f1 f2 ⊢
  have hd : (t - θ) / w * w = t - θ := div_mul_cancel₀ _ hw.ne'
  have g1 : k * w ≤ t - θ + w / 2 := by nlinarith
  have g2 : t - θ - w / 2 < k * w := by nlinarith
  rw [abs_mul]
  refine mul_le_mul_of_nonneg_left ?_ (abs_nonneg A)
  obtain ⟨ε, hε⟩ : ∃ ε, ε = w * (n + k : ℕ) + φ - t := ⟨_, rfl⟩
  have e1 : w * (n + k : ℕ) + φ = (ε + Real.pi / 2) + j * Real.pi := by rw [hε, ht]; ring
  have e2 : |ε| ≤ w / 2 := by
    rw [hε, abs_le]; push_cast
    constructor <;> nlinarith
  rw [e1, Real.sin_add_int_mul_pi, abs_mul, Real.sin_add_pi_div_two]
  have e3 : |((-1 : ℝ)) ^ j| = 1 := by rw [abs_zpow, abs_neg, abs_one, one_zpow]
  rw [e3, one_mul, ← Real.cos_abs ε]
  exact (Real.cos_le_cos_of_nonneg_of_le_pi (abs_nonneg _) (by linarith) e2).trans (le_abs_self _)

/-- **C110.** A new peak detector with only the release set (the attack is then immediate) on a sinusoid of amplitude `A`: once half a period
has passed the reading is at most `|A|` and at least `cos(w/2) exp(-(N-1)/length)` times that, for all `N` from `π/w` on. -/
theorem C110_peak_sine {len : ℝ} (hlen : 0 < len) (b : Build) {A w φ : ℝ} (hw : 0 < w) (hw' : w ≤ Real.pi) {N : ℕ} (hN : Real.pi / w ≤ N) :
    ∃ y, Responds b ((PeakEnvDetector.new : PeakEnvDetector ℝ).setRelease len) (fun n => A * Real.sin (w * n + φ)) y ∧ ∀ n : ℕ,
      y n ≤ |A| ∧ (N ≤ n + 1 → |A| * Real.cos (w / 2) * Real.exp (-((N : ℝ) - 1) / len) ≤ y n) := by
  obtain ⟨s, hs⟩ : ∃ s, s = (PeakEnvDetector.new : PeakEnvDetector ℝ).setRelease len := ⟨_, rfl⟩
  have hs' : s = ⟨0, Real.exp (-1 / len), 0⟩ := by
    rw [hs]
    unfold PeakEnvDetector.setRelease
    have : (lt (zero : ℝ) len && isFinite len) = true := by
      rw [Bool.and_eq_true, real_lt]; exact ⟨hlen, rfl⟩
    rw [if_pos this]; rfl
  rw [← hs]
  obtain ⟨y, hy⟩ := NeverPanics.responds peak_never b s (fun n => A * Real.sin (w * n + φ))
  refine ⟨y, hy, fun n => ?_⟩
  obtain ⟨e, k0, k1, k2⟩ := peak_follows hy
  obtain ⟨r, hr⟩ : ∃ r, r = Real.exp (-1 / len) := ⟨_, rfl⟩
  have hga : s.getAttackGain = 0 := by rw [hs']; rfl
  have hgr : s.getReleaseGain = r := by rw [hs', hr]; rfl
  have he0 : s.lastOut = 0 := by rw [hs']; rfl
  rw [hga, hgr] at k1
  rw [he0] at k0
  have r0 : 0 ≤ r := by rw [hr]; exact (Real.exp_pos _).le
  have r1 : r ≤ 1 := by rw [hr]; exact Real.exp_le_one_iff.mpr (by rw [neg_div]; exact neg_nonpos.mpr (by positivity))
  have hx : ∀ n : ℕ, |A * Real.sin (w * n + φ)| ≤ |A| := fun n => by
    rw [abs_mul]; exact mul_le_of_le_one_right (abs_nonneg _) (Real.abs_sin_le_one _)
  have hup : ∀ n, e n ≤ |A| := by
    intro n
    induction n with
    | zero => rw [k0]; exact abs_nonneg _
    | succ n ih =>
      rw [k1]; have := hx n
      unfold followed
      split_ifs with h
      · linarith
      · nlinarith
  have hstep : ∀ n : ℕ, |A * Real.sin (w * n + φ)| ≤ e (n + 1) ∧ r * e n ≤ e (n + 1) := by
    intro n
    rw [k1]
    have := abs_nonneg (A * Real.sin (w * n + φ))
    unfold followed
    split_ifs with h
    · exact ⟨by linarith, by nlinarith⟩
    · exact ⟨by nlinarith, by nlinarith⟩
  have hpow : ∀ n j, r ^ j * e n ≤ e (n + j) := by
    intro n j
    induction j with
    | zero => simp
    | succ j ih =>
      calc r ^ (j + 1) * e n = r * (r ^ j * e n) := by ring
        _ ≤ r * e (n + j) := mul_le_mul_of_nonneg_left ih r0
        _ ≤ _ := (hstep (n + j)).2
  rw [k2]
  refine ⟨hup _, fun hn => ?_⟩
  obtain ⟨k, hk, hk2⟩ := sine_near_peak (A := A) (φ := φ) hw hw' hN (n + 1 - N)
  have h1 := hk2.trans (hstep (n + 1 - N + k)).1
  have h2 := hpow (n + 1 - N + k + 1) (N - 1 - k)
  rw [show n + 1 - N + k + 1 + (N - 1 - k) = n + 1 by omega] at h2
  have hc : 0 ≤ |A| * Real.cos (w / 2) := mul_nonneg (abs_nonneg _) (Real.cos_nonneg_of_neg_pi_div_two_le_of_le (by linarith) (by linarith))
  have hexp : Real.exp (-((N : ℝ) - 1) / len) = r ^ (N - 1) := by
    rw [hr, ← Real.exp_nat_mul]
    congr 1
    rw [Nat.cast_sub (by omega)]
    push_cast; ring
  rw [hexp]
  calc |A| * Real.cos (w / 2) * r ^ (N - 1) ≤ |A| * Real.cos (w / 2) * r ^ (N - 1 - k) :=
        mul_le_mul_of_nonneg_left (pow_le_pow_of_le_one r0 r1 (by omega)) hc
    _ = r ^ (N - 1 - k) * (|A| * Real.cos (w / 2)) := by ring
    _ ≤ r ^ (N - 1 - k) * e (n + 1 - N + k + 1) := mul_le_mul_of_nonneg_left h1 (pow_nonneg r0 _)
    _ ≤ _ := h2

/-! ## Cases -/

/-- 48 samples with one period: the hypotheses on the frequency, and gains for which the mean reading is above the mean magnitude. -/
example : ¬ 48 ∣ 2 * 1 ∧ (0 : ℝ) ∈ Set.Ico (0 : ℝ) 1 ∧ (1 / 2 : ℝ) ∈ Set.Ico (0 : ℝ) 1 ∧ (0 : ℝ) < 1 / 2 := by
  refine ⟨by decide, ⟨?_, ?_⟩, ⟨?_, ?_⟩, ?_⟩ <;> norm_num

/-- The magnitude of a sine with four samples per period is not constant. -/
example : ∃ n < 4, |(1 : ℝ) * Real.sin (Real.pi / 2 * (n : ℕ))| ≠ |1 * Real.sin (Real.pi / 2 * (0 : ℕ))| := ⟨1, by norm_num, by simp⟩

/-- The ripple of an RMS detector at a quarter of the sample rate: `(1-g)/(1+g)`. -/
example : (1 - 0.9) / Real.sqrt (1 - 2 * 0.9 * Real.cos (2 * (Real.pi / 2)) + 0.9 ^ 2) = (1 : ℝ) / 19 := by
  rw [show 2 * (Real.pi / 2) = Real.pi by ring, Real.cos_pi, show (1 - 2 * 0.9 * -1 + 0.9 ^ 2 : ℝ) = 1.9 ^ 2 by norm_num, Real.sqrt_sq (by norm_num)]
  norm_num

/-- At a quarter of the sample rate two samples in a row suffice. -/
example : 0 < Real.pi / 2 ∧ Real.pi / 2 ≤ Real.pi ∧ Real.pi / (Real.pi / 2) ≤ (2 : ℕ) := by
  have := Real.pi_pos
  refine ⟨by positivity, by linarith, ?_⟩
  rw [div_le_iff₀ (by positivity)]
  push_cast; linarith

end Rasp
