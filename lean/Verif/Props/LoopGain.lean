import Verif.Props.Resonance
import Verif.Props.Energy
import Verif.Lemmas.LoopGain
import Verif.Spec.LoopGain
import Mathlib.Topology.Algebra.InfiniteSum.Order

/-!
# C135: feedback loops around the rbj filters

C125 and C131 need `|g|` times the largest gain for *bounded* inputs (C133) below one. Here the largest gain for *sinusoids* (C71) is
enough, which is smaller; and for many filters no larger factor is stable.
-/

namespace Rasp
open Filter Finset

section
variable {h k x u : ℕ → ℝ} {d g : ℝ}

/-! ## The kernel of one round -/

/-- What one round of the loop convolves with: the line, the filter and the factor. -/
noncomputable def roundKernel (g d : ℝ) (h : ℕ → ℝ) (n : ℕ) : ℝ := g * convolve h (tent d) n

theorem convolve_smul_left (g : ℝ) (h x : ℕ → ℝ) (n : ℕ) : convolve (fun j => g * h j) x n = g * convolve h x n := by
  unfold convolve
  rw [mul_sum]
  exact sum_congr rfl fun _ _ => by ring

theorem convolve_assoc (h t x : ℕ → ℝ) : convolve (convolve h t) x = convolve h (convolve t x) := by
  apply mk_injective
  simp only [mk_convolve]; ring

theorem convolve_swap (h t : ℕ → ℝ) : convolve h t = convolve t h := by
  apply mk_injective
  simp only [mk_convolve]; ring

theorem convolve_roundKernel (g d : ℝ) (h u : ℕ → ℝ) (n : ℕ) : convolve (roundKernel g d h) u n = g * convolve h (interp d [] u) n := by
  show convolve (fun j => g * convolve h (tent d) j) u n = _
  rw [convolve_smul_left, convolve_assoc, convolve_tent]

theorem roundKernel_eq (g d : ℝ) (h : ℕ → ℝ) (n : ℕ) : roundKernel g d h n = g * interp d [] h n := by
  unfold roundKernel
  rw [convolve_swap, convolve_tent]

theorem interp_eq_lag (d : ℝ) (u : ℕ → ℝ) (n : ℕ) : interp d [] u n = (1 - (d - ⌊d⌋₊)) * lag u ⌊d⌋₊ n + (d - ⌊d⌋₊) * lag u (⌊d⌋₊ + 1) n := by
  rfl

theorem roundKernel_zero (hd : 1 ≤ d) (g : ℝ) (h : ℕ → ℝ) : roundKernel g d h 0 = 0 := by
  have : |interp d [] h 0| ≤ 0 := interp_le hd le_rfl fun j hj => absurd hj (Nat.not_lt_zero j)
  rw [roundKernel_eq, abs_nonpos_iff.mp this, mul_zero]

theorem abs_lag_decay {C r : ℝ} (hr : 0 < r) (hh : ∀ n, |h n| ≤ C * r ^ n) (j n : ℕ) : |lag h j n| ≤ C / r ^ j * r ^ n := by
  have hC : 0 ≤ C := by simpa using (abs_nonneg _).trans (hh 0)
  unfold lag
  split_ifs with hj
  · refine (hh _).trans (le_of_eq ?_)
    rw [pow_sub₀ _ hr.ne' hj]; ring
  · show |(0 : ℝ)| ≤ _
    rw [abs_zero]; positivity

theorem roundKernel_le {C r : ℝ} (hd : 0 ≤ d) (hr : 0 < r) (hh : ∀ n, |h n| ≤ C * r ^ n) (g : ℝ) :
    ∃ C', ∀ n, |roundKernel g d h n| ≤ C' * r ^ n := by
  have h1 := Nat.floor_le hd
  have h2 := Nat.lt_floor_add_one d
  have hC : 0 ≤ C := by simpa using (abs_nonneg _).trans (hh 0)
  refine ⟨|g| * (C / r ^ ⌊d⌋₊ + C / r ^ (⌊d⌋₊ + 1)), fun n => ?_⟩
  rw [roundKernel_eq, interp_eq_lag, abs_mul, mul_assoc]
  refine mul_le_mul_of_nonneg_left ((abs_add_le _ _).trans ?_) (abs_nonneg g)
  rw [abs_mul, abs_mul, abs_of_nonneg (show 0 ≤ 1 - (d - ⌊d⌋₊) by linarith), abs_of_nonneg (show 0 ≤ d - ⌊d⌋₊ by linarith), add_mul]
  refine add_le_add ?_ ?_
  · exact (mul_le_of_le_one_left (abs_nonneg _) (by linarith)).trans (abs_lag_decay hr hh _ _)
  · exact (mul_le_of_le_one_left (abs_nonneg _) (by linarith)).trans (abs_lag_decay hr hh _ _)

theorem rootEnergy_interp (hd : 0 ≤ d) (N : ℕ) (u : ℕ → ℝ) : rootEnergy N (interp d [] u) ≤ rootEnergy N u := by
  have h1 := Nat.floor_le hd
  have h2 := Nat.lt_floor_add_one d
  rw [rootEnergy_congr fun n _ => interp_eq_lag d u n]
  refine (rootEnergy_add N _ _).trans ?_
  rw [rootEnergy_mul N _ (lag u _), rootEnergy_mul N _ (lag u _), abs_of_nonneg (by linarith), abs_of_nonneg (by linarith)]
  have a1 := mul_le_mul_of_nonneg_left (rootEnergy_lag N u ⌊d⌋₊) (show 0 ≤ 1 - (d - ⌊d⌋₊) by linarith)
  have a2 := mul_le_mul_of_nonneg_left (rootEnergy_lag N u (⌊d⌋₊ + 1)) (show 0 ≤ d - ⌊d⌋₊ by linarith)
  linarith

/-! ## Stability is decay of the impulse response -/

theorem stableLoop_iff {L : (ℕ → ℝ) → (ℕ → ℝ) → Prop} {e : ℕ → ℝ} (hL : ∀ x u, L x u ↔ u = convolve e x) :
    StableLoop L ↔ ∃ D t : ℝ, 0 ≤ t ∧ t < 1 ∧ ∀ n, |e n| ≤ D * t ^ n := by
  constructor
  · rintro ⟨-, D, r, hr0, hr, hD⟩
    obtain ⟨h1, h2⟩ := hD unitImpulse e 1 ((hL _ _).mpr (convolve_impulse e).symm)
      (fun n => by unfold unitImpulse; split_ifs <;> norm_num)
    simp only [mul_one] at h1 h2
    have hD0 : 0 ≤ D := (abs_nonneg _).trans (h1 0)
    have ht : 0 < max r (1 / 2) := lt_max_of_lt_right (by norm_num)
    refine ⟨D / max r (1 / 2), max r (1 / 2), ht.le, max_lt hr (by norm_num), fun n => ?_⟩
    rcases n with _ | n
    · rw [pow_zero, mul_one]
      refine (h1 0).trans ?_
      rw [le_div_iff₀ ht]
      exact mul_le_of_le_one_right hD0 (max_lt hr (by norm_num)).le
    · refine (h2 1 (fun n hn => by unfold unitImpulse; rw [if_neg (by omega)]) (n + 1) (by omega)).trans ?_
      rw [Nat.add_sub_cancel, pow_succ, show D / max r (1 / 2) * (max r (1 / 2) ^ n * max r (1 / 2)) = D * max r (1 / 2) ^ n by field_simp]
      exact mul_le_mul_of_nonneg_left (pow_le_pow_left₀ hr0 (le_max_left _ _) n) hD0
  · rintro ⟨D, t, ht0, ht, he⟩
    have hD : 0 ≤ D := by simpa using (abs_nonneg _).trans (he 0)
    have hgeo : ∀ N, ∑ j ∈ range N, t ^ j ≤ (1 - t)⁻¹ := fun N =>
      sum_le_hasSum _ (fun _ _ => by positivity) (hasSum_geometric_of_lt_one ht0 ht)
    refine ⟨fun x => ⟨_, (hL _ _).mpr rfl⟩, D * (1 - t)⁻¹, t, ht0, ht, fun x u B hu hB => ?_⟩
    rw [hL] at hu
    have hB0 : 0 ≤ B := (abs_nonneg _).trans (hB 0)
    subst hu
    refine ⟨fun n => ?_, fun N hN n hn => ?_⟩
    · refine (abs_convolve_le hB n).trans (mul_le_mul_of_nonneg_right ?_ hB0)
      refine (sum_le_sum fun j _ => he j).trans ?_
      rw [← mul_sum]
      exact mul_le_mul_of_nonneg_left (hgeo _) hD
    · unfold convolve
      rw [show n + 1 = (n - N) + (N + 1) by omega, sum_range_add]
      rw [sum_eq_zero (s := range (n - N)) fun j hj => by rw [hN _ (by have := mem_range.mp hj; omega), mul_zero], zero_add]
      refine (abs_sum_le_sum_abs _ _).trans ?_
      have e1 : ∀ j ∈ range (N + 1), |e (n - N + j) * x (n - (n - N + j))| ≤ D * B * t ^ (n - N) * t ^ j := by
        intro j _
        rw [abs_mul]
        refine (mul_le_mul (he _) (hB _) (abs_nonneg _) (by positivity)).trans (le_of_eq ?_)
        rw [pow_add]; ring
      refine (sum_le_sum e1).trans ?_
      rw [← mul_sum]
      refine (mul_le_mul_of_nonneg_left (hgeo _) (by positivity)).trans (le_of_eq ?_)
      ring

theorem hasSum_abs_of_decay {e : ℕ → ℝ} {D t : ℝ} (ht0 : 0 ≤ t) (ht : t < 1) (he : ∀ n, |e n| ≤ D * t ^ n) : ∃ G, HasSum (fun n => |e n|) G :=
  ⟨_, (Summable.of_nonneg_of_le (fun _ => abs_nonneg _) he ((summable_geometric_of_lt_one ht0 ht).mul_left D)).hasSum⟩

theorem tendsto_convolve {e r : ℕ → ℝ} {G : ℝ} (hG : HasSum (fun n => |e n|) G) (hr : Tendsto r atTop (nhds 0)) :
    Tendsto (convolve e r) atTop (nhds 0) := by
  have hG0 : 0 ≤ G := hG.nonneg fun _ => abs_nonneg _
  obtain ⟨B, hB⟩ : ∃ B, ∀ n, |r n| ≤ B := by
    obtain ⟨B, hB⟩ := hr.abs.bddAbove_range
    exact ⟨B, fun n => hB ⟨n, rfl⟩⟩
  refine tendsto_zero_of_eventually fun ε hε => ?_
  have := eventually_convolve hG hB (eventually_of_tendsto_zero hr (show 0 < ε / (2 * (G + 1)) by positivity)) (half_pos hε)
  filter_upwards [this] with n hn
  refine hn.trans ?_
  have : G * (ε / (2 * (G + 1))) ≤ ε / 2 := by
    rw [mul_div_assoc', div_le_div_iff₀ (by positivity) (by norm_num)]
    nlinarith
  linarith

/-! ## Sinusoids -/

theorem roundKernel_phasor {ω G : ℝ} {K : ℂ} (hG : HasSum (fun n => |h n|) G)
    (hK : ∀ z, Tendsto (fun n => convolve h (phasor z ω) n - phasor (K * z) ω n) atTop (nhds 0)) (g : ℝ) (z : ℂ) :
    Tendsto (fun n => convolve (roundKernel g d h) (phasor z ω) n - phasor (g * (K * lineResponse d ω) * z) ω n) atTop (nhds 0) := by
  have h1 : Tendsto (fun n => interp d [] (phasor z ω) n - phasor (lineResponse d ω * z) ω n) atTop (nhds 0) := by
    refine tendsto_const_nhds.congr' ?_
    filter_upwards [eventually_ge_atTop (⌊d⌋₊ + 1)] with n hn
    rw [interp_phasor z ω hn, sub_self]
  have h2 := tendsto_convolve hG h1
  have h3 := ((h2.add (hK (lineResponse d ω * z))).const_mul g)
  rw [add_zero, mul_zero] at h3
  refine h3.congr fun n => ?_
  rw [← convolve_sub, convolve_roundKernel, mul_assoc, phasor_real_mul, mul_assoc]
  ring

theorem phasor_not_tendsto {ω : ℝ} (h1 : Tendsto (phasor 1 ω) atTop (nhds 0)) (h2 : Tendsto (phasor Complex.I ω) atTop (nhds 0)) : False := by
  have h3 := (h1.pow 2).add (h2.pow 2)
  have e : ∀ n, phasor 1 ω n ^ 2 + phasor Complex.I ω n ^ 2 = 1 := by
    intro n
    unfold phasor
    simp
  simp only [e] at h3
  have := tendsto_nhds_unique h3 tendsto_const_nhds
  norm_num at this

/-- In a loop whose impulse response decays, no sinusoid goes round unchanged, and every sinusoid settles. -/
theorem loop_settles {ω : ℝ} {Q : ℂ} {D t : ℝ} (h0 : k 0 = 0) (ht0 : 0 ≤ t) (ht : t < 1) (he : ∀ n, |loopKernel k n| ≤ D * t ^ n)
    (hk : ∀ z, Tendsto (fun n => convolve k (phasor z ω) n - phasor (Q * z) ω n) atTop (nhds 0)) :
    Q ≠ 1 ∧ ∀ (X : ℂ) u, (∀ n, u n = phasor X ω n + convolve k u n) → Tendsto (fun n => u n - phasor ((1 - Q)⁻¹ * X) ω n) atTop (nhds 0) := by
  obtain ⟨G, hG⟩ := hasSum_abs_of_decay ht0 ht he
  have key : ∀ v : ℕ → ℝ, Tendsto (fun n => v n - convolve k v n) atTop (nhds 0) → Tendsto v atTop (nhds 0) := by
    intro v hv
    have := (loopKernel_iff h0 (fun n => v n - convolve k v n) v).mp fun n => by ring
    rw [this]
    exact tendsto_convolve hG hv
  have hQ : Q ≠ 1 := by
    rintro rfl
    have h1 : ∀ z, Tendsto (phasor z ω) atTop (nhds 0) := fun z => by
      refine key _ ?_
      have := (hk z).neg
      rw [neg_zero, one_mul] at this
      exact this.congr fun n => by ring
    exact phasor_not_tendsto (h1 1) (h1 Complex.I)
  refine ⟨hQ, fun X u hu => ?_⟩
  set U := (1 - Q)⁻¹ * X with hU
  have hne : 1 - Q ≠ 0 := sub_ne_zero.mpr (Ne.symm hQ)
  have e1 : U - Q * U = X := by rw [hU]; field_simp
  refine key _ ?_
  refine (hk U).congr fun n => ?_
  have e2 : phasor X ω n = phasor U ω n - phasor (Q * U) ω n := by rw [phasor_sub, e1]
  rw [← convolve_sub, hu n, e2]
  ring_nf

/-! ## A real pole -/

/-- When the kernel's value at `σ = 1` or `σ = -1` is at least one, the loop's impulse response does not decay. -/
theorem not_decays {σ c C r : ℝ} (hσ : σ ^ 2 = 1) (h0 : k 0 = 0) (hr0 : 0 ≤ r) (hr : r < 1) (hk : ∀ n, |k n| ≤ C * r ^ n)
    (hc : HasSum (fun j => k j * σ ^ j) c) (h1 : 1 ≤ c) {D t : ℝ} (ht0 : 0 ≤ t) (ht : t < 1) (he : ∀ n, |loopKernel k n| ≤ D * t ^ n) : False := by
  have hC : 0 ≤ C := by simpa using (abs_nonneg _).trans (hk 0)
  have hσ1 : |σ| = 1 := by rwa [← sq_eq_sq₀ (abs_nonneg _) zero_le_one, sq_abs, one_pow]
  have hσ0 : σ ≠ 0 := by intro h; rw [h] at hσ; norm_num at hσ
  have hb : ∀ s ∈ Set.Icc (0 : ℝ) 1, ∀ j, ‖k j * (σ * s) ^ j‖ ≤ C * r ^ j := by
    intro s hs j
    rw [Real.norm_eq_abs, abs_mul, abs_pow, abs_mul, hσ1, one_mul, abs_of_nonneg hs.1]
    exact (mul_le_of_le_one_right (abs_nonneg _) (pow_le_one₀ hs.1 hs.2)).trans (hk j)
  have hsm : Summable fun j => C * r ^ j := (summable_geometric_of_lt_one hr0 hr).mul_left C
  have hcont : ContinuousOn (fun s : ℝ => ∑' j, k j * (σ * s) ^ j) (Set.Icc 0 1) :=
    continuousOn_tsum (fun j => by fun_prop) hsm fun j s hs => hb s hs j
  have hF0 : ∑' j, k j * (σ * 0) ^ j = 0 := by
    rw [tsum_eq_single 0 fun j hj => by rw [mul_zero, zero_pow hj, mul_zero], h0, zero_mul]
  have hF1 : ∑' j, k j * (σ * 1) ^ j = c := by rw [mul_one]; exact hc.tsum_eq
  obtain ⟨s, hs, hFs⟩ : (1 : ℝ) ∈ (fun s : ℝ => ∑' j, k j * (σ * s) ^ j) '' Set.Icc 0 1 := by
    apply intermediate_value_Icc zero_le_one hcont
    rw [hF0, hF1]
    exact ⟨zero_le_one, h1⟩
  beta_reduce at hFs
  have hs0 : 0 < s := by
    refine lt_of_le_of_ne hs.1 fun h => ?_
    rw [← h, hF0] at hFs
    norm_num at hFs
  have hρ0 : σ * s ≠ 0 := mul_ne_zero hσ0 hs0.ne'
  have hρ1 : |σ * s| ≤ 1 := by rw [abs_mul, hσ1, one_mul, abs_of_pos hs0]; exact hs.2
  set ρ := σ * s with hρ
  have hsum : Summable fun j => k j * ρ ^ j := Summable.of_norm_bounded hsm (hb s hs)
  obtain ⟨G, hG⟩ := hasSum_abs_of_decay ht0 ht he
  have hx : ∀ n, ρ⁻¹ ^ n - convolve k (fun n => ρ⁻¹ ^ n) n = ρ⁻¹ ^ n * ∑' j, k (j + (n + 1)) * ρ ^ (j + (n + 1)) := by
    intro n
    have e1 := hsum.sum_add_tsum_nat_add (n + 1)
    rw [hFs] at e1
    have e2 : convolve k (fun n => ρ⁻¹ ^ n) n = ρ⁻¹ ^ n * ∑ j ∈ range (n + 1), k j * ρ ^ j := by
      unfold convolve
      rw [mul_sum]
      refine sum_congr rfl fun j hj => ?_
      rw [mem_range] at hj
      rw [show ρ⁻¹ ^ n = ρ⁻¹ ^ (n - j) * ρ⁻¹ ^ j by rw [← pow_add]; congr 1; omega]
      rw [inv_pow ρ j]
      field_simp
    rw [e2]
    linear_combination (-ρ⁻¹ ^ n) * e1
  have hxb : ∀ n, |ρ⁻¹ ^ n - convolve k (fun n => ρ⁻¹ ^ n) n| ≤ C * (1 - r)⁻¹ * r ^ n := by
    intro n
    rw [hx, ← tsum_mul_left, show C * (1 - r)⁻¹ * r ^ n = C * r ^ n * (1 - r)⁻¹ by ring]
    have hg : HasSum (fun j => C * r ^ n * r ^ j) (C * r ^ n * (1 - r)⁻¹) := (hasSum_geometric_of_lt_one hr0 hr).mul_left _
    rw [← Real.norm_eq_abs]
    refine tsum_of_norm_bounded hg fun j => ?_
    rw [Real.norm_eq_abs, show ρ⁻¹ ^ n * (k (j + (n + 1)) * ρ ^ (j + (n + 1))) = k (j + (n + 1)) * ρ ^ (j + 1) by
      rw [inv_pow, show j + (n + 1) = n + (j + 1) by ring, pow_add]; field_simp, abs_mul, abs_pow]
    refine (mul_le_of_le_one_right (abs_nonneg _) (pow_le_one₀ (abs_nonneg _) hρ1)).trans ((hk _).trans ?_)
    rw [mul_assoc, ← pow_add]
    exact mul_le_mul_of_nonneg_left (pow_le_pow_of_le_one hr0 hr.le (by omega)) hC
  have hx0 : Tendsto (fun n => ρ⁻¹ ^ n - convolve k (fun n => ρ⁻¹ ^ n) n) atTop (nhds 0) := by
    refine squeeze_zero_norm hxb ?_
    have := (tendsto_pow_atTop_nhds_zero_of_lt_one hr0 hr).const_mul (C * (1 - r)⁻¹)
    rwa [mul_zero] at this
  have hu := (loopKernel_iff h0 (fun n => ρ⁻¹ ^ n - convolve k (fun n => ρ⁻¹ ^ n) n) (fun n => ρ⁻¹ ^ n)).mp fun n => by ring
  have hlim := tendsto_convolve hG hx0
  rw [← hu] at hlim
  have := eventually_of_tendsto_zero hlim (show (0 : ℝ) < 1 / 2 by norm_num)
  obtain ⟨n, hn⟩ := this.exists
  rw [abs_pow, abs_inv] at hn
  have : 1 ≤ |ρ|⁻¹ ^ n := one_le_pow₀ ((one_le_inv₀ (abs_pos.mpr hρ0)).mpr hρ1)
  linarith

theorem roundKernel_sum {σ C r γ : ℝ} (hσ : σ ^ 2 = 1) (hd : 0 ≤ d) (hr0 : 0 < r) (hr : r < 1) (hh : ∀ n, |h n| ≤ C * r ^ n)
    (hγ : Tendsto (fun n => convolve h (fun n => σ ^ n) n - γ * σ ^ n) atTop (nhds 0)) (g : ℝ) :
    HasSum (fun j => roundKernel g d h j * σ ^ j) (g * (γ * ((1 - (d - ⌊d⌋₊)) * σ ^ ⌊d⌋₊ + (d - ⌊d⌋₊) * σ ^ (⌊d⌋₊ + 1)))) := by
  have hσ1 : |σ| = 1 := by rwa [← sq_eq_sq₀ (abs_nonneg _) zero_le_one, sq_abs, one_pow]
  have hinv : ∀ n, σ ^ n * σ ^ n = 1 := fun n => by rw [← mul_pow, ← sq, hσ, one_pow]
  have hsub : ∀ {j n : ℕ}, j ≤ n → σ ^ (n - j) = σ ^ n * σ ^ j := fun {j n} hj => by
    rw [show σ ^ n = σ ^ (n - j) * σ ^ j by rw [← pow_add]; congr 1; omega, mul_assoc, hinv, mul_one]
  obtain ⟨C', hC'⟩ := roundKernel_le hd hr0 hh g
  obtain ⟨G, hG⟩ := hasSum_abs_of_decay hr0.le hr hh
  set P := (1 - (d - ⌊d⌋₊)) * σ ^ ⌊d⌋₊ + (d - ⌊d⌋₊) * σ ^ (⌊d⌋₊ + 1) with hP
  have hsm : Summable fun j => roundKernel g d h j * σ ^ j := by
    refine Summable.of_norm_bounded ((summable_geometric_of_lt_one hr0.le hr).mul_left C') fun j => ?_
    rw [Real.norm_eq_abs, abs_mul, abs_pow, hσ1, one_pow, mul_one]
    exact hC' j
  have h1 : Tendsto (fun n => interp d [] (fun n => σ ^ n) n - P * σ ^ n) atTop (nhds 0) := by
    refine tendsto_const_nhds.congr' ?_
    filter_upwards [eventually_ge_atTop (⌊d⌋₊ + 1)] with n hn
    rw [interp_eq_lag, lag, lag, if_pos (by omega), if_pos hn, hsub hn, hsub (by omega : ⌊d⌋₊ ≤ n), hP]
    ring
  have h2 := ((tendsto_convolve hG h1).add (hγ.const_mul P)).const_mul g
  rw [mul_zero, add_zero, mul_zero] at h2
  have h3 : Tendsto (fun n => ∑ j ∈ range (n + 1), roundKernel g d h j * σ ^ j - g * (γ * P)) atTop (nhds 0) := by
    have h4 := h2.abs
    rw [abs_zero] at h4
    refine squeeze_zero_norm (fun n => le_of_eq ?_) h4
    have e1 : convolve (roundKernel g d h) (fun n => σ ^ n) n = σ ^ n * ∑ j ∈ range (n + 1), roundKernel g d h j * σ ^ j := by
      unfold convolve
      rw [mul_sum]
      refine sum_congr rfl fun j hj => ?_
      have hj' : j ≤ n := by have := mem_range.mp hj; omega
      beta_reduce
      rw [hsub hj']; ring
    have e2 : convolve h (fun j => P * σ ^ j) n = P * convolve h (fun n => σ ^ n) n := by
      rw [convolve_swap, convolve_smul_left, convolve_swap]
    have e3 : g * (convolve h (fun n => interp d [] (fun n => σ ^ n) n - P * σ ^ n) n + P * (convolve h (fun n => σ ^ n) n - γ * σ ^ n)) =
        σ ^ n * (∑ j ∈ range (n + 1), roundKernel g d h j * σ ^ j - g * (γ * P)) := by
      rw [← convolve_sub, e2]
      have := convolve_roundKernel g d h (fun n => σ ^ n) n
      linear_combination e1 - this
    rw [e3, abs_mul, abs_pow, hσ1, one_pow, one_mul, Real.norm_eq_abs]
  have h5 := (tendsto_add_atTop_iff_nat 1).mpr hsm.hasSum.tendsto_sum_nat
  have h6 := h5.sub_const (g * (γ * P))
  have h7 := tendsto_nhds_unique h6 h3
  have : ∑' j, roundKernel g d h j * σ ^ j = g * (γ * P) := by linarith
  rw [← this]
  exact hsm.hasSum

end

section
variable {b : Build} {τ : Type} [Processor τ ℝ] {p : τ} {g M ω : ℝ} {K : ℂ}

/-! ## Loops with any filter -/

theorem delayLoop_iff [Target] {d m : ℕ} (hm : Allocatable ℝ m) (hd : 1 ≤ d) (hdm : d ≤ m) (hp : NeverPanics τ (T := ℝ)) (x u : ℕ → ℝ) :
    DelayLoop b d m g p x u ↔ ∃ w, Responds b p (interp d [] u) w ∧ ∀ n, u n = x n + g * w n := by
  obtain ⟨s, hs, -, hiff⟩ := C125_loop (b := b) (d := d) hm hp p (fun a c => a + g * c) x
  have he : (if min d m = 0 then m + 1 else min d m) = d := by rw [min_eq_left hdm, if_neg (by omega)]
  constructor
  · rintro ⟨s', v, w, r, hs', hl⟩
    obtain rfl := Except.ok.inj (hs.symm.trans hs')
    obtain ⟨hv, hw, hu, -⟩ := (hiff u v w r).mp hl
    rw [he, ← interp_nat] at hv
    exact ⟨w, hv ▸ hw, hu⟩
  · rintro ⟨w, hw, hu⟩
    refine ⟨s, interp d [] u, w, _, hs, (hiff _ _ _ _).mpr ⟨?_, hw, hu, rfl⟩⟩
    rw [he, interp_nat]

theorem linearDelayLoop_iff [Target] {d : ℝ} {m : ℕ} (hm : Allocatable ℝ m) (hd : 1 ≤ d) (hdm : d ≤ m) (hp : NeverPanics τ (T := ℝ))
    (x u : ℕ → ℝ) : LinearDelayLoop b d m g p x u ↔ ∃ w, Responds b p (interp d [] u) w ∧ ∀ n, u n = x n + g * w n := by
  have hm1 : 1 ≤ m := by exact_mod_cast hd.trans hdm
  obtain ⟨s, hs, -, hiff⟩ := C125_linear_loop (b := b) hm hm1 hd hp p (fun a c => a + g * c) x
  constructor
  · rintro ⟨s', v, w, r, hs', hl⟩
    obtain rfl := Except.ok.inj (hs.symm.trans hs')
    obtain ⟨hv, hw, hu, -⟩ := (hiff u v w r).mp hl
    rw [min_eq_left hdm] at hv
    exact ⟨w, hv ▸ hw, hu⟩
  · rintro ⟨w, hw, hu⟩
    refine ⟨s, interp d [] u, w, _, hs, (hiff _ _ _ _).mpr ⟨?_, hw, hu, rfl⟩⟩
    rw [min_eq_left hdm]

theorem EnergyGainAtMost.rootEnergy (h : EnergyGainAtMost p M) (hM : 0 ≤ M) {x y : ℕ → ℝ} (hy : Responds b p x y) (N : ℕ) :
    rootEnergy N y ≤ M * rootEnergy N x := by
  obtain ⟨y', hy', hle⟩ := h b x
  obtain rfl := hy.unique hy'
  rw [← sq_le_sq₀ (rootEnergy_nonneg _ _) (mul_nonneg hM (rootEnergy_nonneg _ _)), mul_pow, rootEnergy_sq, rootEnergy_sq]
  exact hle N

variable {L : (ℕ → ℝ) → (ℕ → ℝ) → Prop} {d : ℝ}

theorem fed_energy (hd : 1 ≤ d) (hE : EnergyGainAtMost p M) (hM : 0 ≤ M) (hg : |g| * M < 1) {x u w : ℕ → ℝ}
    (hw : Responds b p (interp d [] u) w) (hu : ∀ n, u n = x n + g * w n) (N : ℕ) :
    ∑ n ∈ range N, u n ^ 2 ≤ (1 / (1 - |g| * M)) ^ 2 * ∑ n ∈ range N, x n ^ 2 := by
  have h1 : rootEnergy N u ≤ rootEnergy N x + |g| * (M * rootEnergy N u) := by
    have e := rootEnergy_congr (N := N) fun n _ => hu n
    rw [e]
    refine (rootEnergy_add N _ _).trans (add_le_add le_rfl ?_)
    rw [rootEnergy_mul N g w, ← e]
    exact mul_le_mul_of_nonneg_left ((hE.rootEnergy hM hw N).trans (mul_le_mul_of_nonneg_left (rootEnergy_interp (by linarith) N u) hM)) (abs_nonneg g)
  have h2 : rootEnergy N u ≤ 1 / (1 - |g| * M) * rootEnergy N x := by
    rw [one_div, ← div_eq_inv_mul, le_div_iff₀ (by linarith)]
    linarith
  rw [← rootEnergy_sq, ← rootEnergy_sq, ← mul_pow]
  exact pow_le_pow_left₀ (rootEnergy_nonneg _ _) h2 2

theorem fed_iff {h : ℕ → ℝ} (hd : 1 ≤ d) (hh : ∀ x y, Responds b p x y ↔ y = convolve h x)
    (hL : ∀ x u, L x u ↔ ∃ w, Responds b p (interp d [] u) w ∧ ∀ n, u n = x n + g * w n) (x u : ℕ → ℝ) :
    L x u ↔ u = convolve (loopKernel (roundKernel g d h)) x := by
  rw [hL, ← loopKernel_iff (roundKernel_zero hd g h)]
  simp only [convolve_roundKernel]
  constructor
  · rintro ⟨w, hw, hu⟩ n
    rw [hu n, (hh _ _).mp hw]
  · intro hu
    exact ⟨_, (hh _ _).mpr rfl, hu⟩

theorem fed_stable (hd : 1 ≤ d) (hL : ∀ x u, L x u ↔ ∃ w, Responds b p (interp d [] u) w ∧ ∀ n, u n = x n + g * w n) (hp : DiesAway b p)
    (hE : EnergyGainAtMost p M) (hM : 0 ≤ M) (hg : |g| * M < 1) : StableLoop L := by
  obtain ⟨h, C, r, hr0, hr, hh, hC⟩ := hp
  rw [stableLoop_iff (fed_iff hd hh hL)]
  obtain ⟨C', hC'⟩ := roundKernel_le (d := d) (by linarith) hr0 hC g
  obtain ⟨D, t, -, ht0, ht, hD⟩ := loopKernel_decays (roundKernel_zero hd g h) hr0.le hr hC' hg fun x N => by
    rw [rootEnergy_congr fun n _ => convolve_roundKernel g d h x n, rootEnergy_mul N g (convolve h (interp d [] x)), mul_assoc]
    exact mul_le_mul_of_nonneg_left ((hE.rootEnergy hM ((hh _ _).mpr rfl) N).trans
      (mul_le_mul_of_nonneg_left (rootEnergy_interp (by linarith) N x) hM)) (abs_nonneg g)
  exact ⟨D, t, ht0, ht, hD⟩

theorem fed_response (hd : 1 ≤ d) (hL : ∀ x u, L x u ↔ ∃ w, Responds b p (interp d [] u) w ∧ ∀ n, u n = x n + g * w n) (hp : DiesAway b p)
    (hs : StableLoop L) (hK : SinusoidGain p ω K) : g * (K * lineResponse d ω) ≠ 1 ∧
      ∀ (A φ : ℝ) u, L (fun n => A * Real.cos (ω * n + φ)) u → RespondsWith u A ω φ (loopResponse g (lineResponse d ω) K) := by
  obtain ⟨h, C, r, hr0, hr, hh, hC⟩ := hp
  rw [stableLoop_iff (fed_iff hd hh hL)] at hs
  obtain ⟨D, t, ht0, ht, hD⟩ := hs
  obtain ⟨G, hG⟩ := hasSum_abs_of_decay hr0.le hr hC
  obtain ⟨h1, h2⟩ := loop_settles (roundKernel_zero hd g h) ht0 ht hD (roundKernel_phasor (d := d) hG (hK.convolves hh) g)
  refine ⟨h1, fun A φ u hu => ?_⟩
  rw [respondsWith_iff]
  refine h2 _ u fun n => ?_
  obtain ⟨w, hw, hu⟩ := (hL _ _).mp hu
  rw [phasor_input, convolve_roundKernel, hu n, (hh _ _).mp hw]

theorem fed_unstable {σ γ : ℝ} (hσ : σ ^ 2 = 1) (hd : 1 ≤ d)
    (hL : ∀ x u, L x u ↔ ∃ w, Responds b p (interp d [] u) w ∧ ∀ n, u n = x n + g * w n) (hp : DiesAway b p)
    (hγ : ConvergesTo p (fun n => σ ^ n) (fun n => γ * σ ^ n))
    (h1 : 1 ≤ g * (γ * ((1 - (d - ⌊d⌋₊)) * σ ^ ⌊d⌋₊ + (d - ⌊d⌋₊) * σ ^ (⌊d⌋₊ + 1)))) : ¬ StableLoop L := by
  obtain ⟨h, C, r, hr0, hr, hh, hC⟩ := hp
  rw [stableLoop_iff (fed_iff hd hh hL)]
  rintro ⟨D, t, ht0, ht, hD⟩
  obtain ⟨C', hC'⟩ := roundKernel_le (d := d) (by linarith) hr0 hC g
  exact not_decays hσ (roundKernel_zero hd g h) hr0.le hr hC'
    (roundKernel_sum hσ (by linarith) hr0 hr hC (hγ.2 b _ ((hh _ _).mpr rfl)) g) h1 ht0 ht hD

/-- **C135**. A filter that never raises the energy of its input by more than `M ^ 2`, in a loop with `|g| M < 1`: the loop never holds more
energy than `1 / (1 - |g| M)` squared times that of the input so far. The filter need not be linear. -/
theorem C135_energy [Target] (hp : NeverPanics τ (T := ℝ)) (hE : EnergyGainAtMost p M) (hM : 0 ≤ M) (hg : |g| * M < 1) :
    (∀ d m : ℕ, Allocatable ℝ m → 1 ≤ d → d ≤ m → ∀ x u, DelayLoop b d m g p x u → ∀ N,
      ∑ n ∈ range N, u n ^ 2 ≤ (1 / (1 - |g| * M)) ^ 2 * ∑ n ∈ range N, x n ^ 2) ∧
    (∀ (d : ℝ) (m : ℕ), Allocatable ℝ m → 1 ≤ d → d ≤ m → ∀ x u, LinearDelayLoop b d m g p x u → ∀ N,
      ∑ n ∈ range N, u n ^ 2 ≤ (1 / (1 - |g| * M)) ^ 2 * ∑ n ∈ range N, x n ^ 2) := by
  refine ⟨fun d m hm hd hdm x u hl N => ?_, fun d m hm hd hdm x u hl N => ?_⟩
  · obtain ⟨w, hw, hu⟩ := (delayLoop_iff hm hd hdm hp x u).mp hl
    exact fed_energy (by exact_mod_cast hd) hE hM hg hw hu N
  · obtain ⟨w, hw, hu⟩ := (linearDelayLoop_iff hm hd hdm hp x u).mp hl
    exact fed_energy hd hE hM hg hw hu N

/-- **C135**. When moreover the filter's impulse response decays exponentially, all these loops are stable. -/
theorem C135_stable [Target] (hp : NeverPanics τ (T := ℝ)) (hf : DiesAway b p) (hE : EnergyGainAtMost p M) (hM : 0 ≤ M) (hg : |g| * M < 1) :
    StableInEveryLoop b g p :=
  ⟨fun _ _ hm hd hdm => fed_stable (by exact_mod_cast hd) (delayLoop_iff hm hd hdm hp) hf hE hM hg,
   fun _ _ hm hd hdm => fed_stable hd (linearDelayLoop_iff hm hd hdm hp) hf hE hM hg⟩

/-- **C135**. In every stable loop, a sinusoid never comes round unchanged, and the loop settles to the response of C131. -/
theorem C135_response [Target] (hp : NeverPanics τ (T := ℝ)) (hf : DiesAway b p) (hK : SinusoidGain p ω K) :
    (∀ d m : ℕ, Allocatable ℝ m → 1 ≤ d → d ≤ m → StableLoop (DelayLoop b d m g p) → g * (K * lineResponse d ω) ≠ 1 ∧
      ∀ (A φ : ℝ) u, DelayLoop b d m g p (fun n => A * Real.cos (ω * n + φ)) u → RespondsWith u A ω φ (loopResponse g (lineResponse d ω) K)) ∧
    (∀ (d : ℝ) (m : ℕ), Allocatable ℝ m → 1 ≤ d → d ≤ m → StableLoop (LinearDelayLoop b d m g p) → g * (K * lineResponse d ω) ≠ 1 ∧
      ∀ (A φ : ℝ) u, LinearDelayLoop b d m g p (fun n => A * Real.cos (ω * n + φ)) u → RespondsWith u A ω φ (loopResponse g (lineResponse d ω) K)) :=
  ⟨fun _ _ hm hd hdm hs => fed_response (by exact_mod_cast hd) (delayLoop_iff hm hd hdm hp) hf hs hK,
   fun _ _ hm hd hdm hs => fed_response hd (linearDelayLoop_iff hm hd hdm hp) hf hs hK⟩

/-- **C135**. When the filter multiplies constants by `γ` and `g γ ≥ 1`, no loop around it is stable, whatever the line. -/
theorem C135_constants [Target] {γ : ℝ} (hp : NeverPanics τ (T := ℝ)) (hf : DiesAway b p) (hγ : ∀ c, ConvergesTo p (fun _ => c) (fun _ => γ * c))
    (h1 : 1 ≤ g * γ) : StableInNoLoop b g p := by
  have hγ' : ConvergesTo p (fun n => (1 : ℝ) ^ n) (fun n => γ * (1 : ℝ) ^ n) := by simpa using hγ 1
  refine ⟨fun d m hm hd hdm => fed_unstable (by norm_num) (by exact_mod_cast hd) (delayLoop_iff hm hd hdm hp) hf hγ' ?_,
    fun d m hm hd hdm => fed_unstable (by norm_num) hd (linearDelayLoop_iff hm hd hdm hp) hf hγ' ?_⟩
  · simpa using h1
  · simpa using h1

/-- **C135**. When the filter multiplies alternating signals by `γ`, loops around it with a `Delay` of `d` samples and `(-1) ^ d g γ ≥ 1` are
not stable. -/
theorem C135_alternating [Target] {γ : ℝ} (hp : NeverPanics τ (T := ℝ)) (hf : DiesAway b p)
    (hγ : ∀ c, ConvergesTo p (fun n => (-1) ^ n * c) (fun n => γ * ((-1) ^ n * c))) {d m : ℕ} (hm : Allocatable ℝ m) (hd : 1 ≤ d) (hdm : d ≤ m)
    (h1 : 1 ≤ (-1) ^ d * (g * γ)) : ¬ StableLoop (DelayLoop b d m g p) := by
  have hγ' : ConvergesTo p (fun n => (-1 : ℝ) ^ n) (fun n => γ * (-1 : ℝ) ^ n) := by simpa using hγ 1
  refine fed_unstable (σ := -1) (by norm_num) (by exact_mod_cast hd) (delayLoop_iff hm hd hdm hp) hf hγ' ?_
  rw [Nat.floor_natCast]
  linarith

end

/-! ## The rbj filters -/

theorem Implements.diesAway {σ : Type} [Processor σ ℝ] {s : σ} {b0 b1 b2 a1 a2 : ℝ} (h : Implements s b0 b1 b2 a1 a2) (hs : StablePair a1 a2)
    (b : Build) : DiesAway b s := by
  obtain ⟨k, hk, hh⟩ := h.isConvolution b
  obtain ⟨C, t, -, ht0, ht, hC⟩ := ((h b _ _).mp hk).decays hs
  exact ⟨k, C, t, ht0, ht, hh, hC⟩

/-- A filter that multiplies the sinusoids of one frequency by a real factor. -/
theorem SinusoidGain.of_real {σ : Type} [Processor σ ℝ] {s : σ} {ω c : ℝ}
    (h : ∀ A φ : ℝ, ConvergesTo s (fun n => A * Real.cos (ω * n + φ)) (fun n => c * A * Real.cos (ω * n + φ))) : SinusoidGain s ω c := by
  intro A φ
  have e : (fun n : ℕ => ‖(c : ℂ)‖ * A * Real.cos (ω * n + φ + (c : ℂ).arg)) = fun n : ℕ => c * A * Real.cos (ω * n + φ) := by
    funext n
    rw [← phasor_gain, phasor_real_mul, phasor_input, mul_assoc]
  rw [e]
  exact h A φ

section
variable {sr f q S g : ℝ} {b : Build}

/-- **C135**. The rbj filters in loops: stable as long as `|g|` times their largest gain for sinusoids is below one. -/
theorem C135_rbj [Target] (h : ValidParams sr f q) :
    (∀ s : LowPass ℝ, |g| * resonance q < 1 → StableInEveryLoop b g (s.setCoefficients sr f q)) ∧
    (∀ s : HighPass ℝ, |g| * resonance q < 1 → StableInEveryLoop b g (s.setCoefficients sr f q)) ∧
    (∀ s : BandPass1 ℝ, |g| * q < 1 → StableInEveryLoop b g (s.setCoefficients sr f q)) ∧
    (∀ s : BandPass2 ℝ, |g| < 1 → StableInEveryLoop b g (s.setCoefficients sr f q)) ∧
    (∀ s : BandStop ℝ, |g| < 1 → StableInEveryLoop b g (s.setCoefficients sr f q)) ∧
    (∀ s : AllPass ℝ, |g| < 1 → StableInEveryLoop b g (s.setCoefficients sr f q)) ∧
    (∀ (s : Peak ℝ) (db : ℝ), |g| * max 1 (dbFactor db) < 1 → StableInEveryLoop b g (s.setCoefficients sr f db q)) := by
  obtain ⟨-, -, -, -, -, -, n1, n2, n3, n4, n5, n6, n7, -⟩ := C03_filters_and_analysers_never_panic ℝ
  obtain ⟨e1, e2, e3, e4, e5, e6, e7⟩ := C82_energy h
  refine ⟨fun s hg => ?_, fun s hg => ?_, fun s hg => ?_, fun s hg => ?_, fun s hg => ?_, fun s hg => ?_, fun s db hg => ?_⟩
  · exact C135_stable n1 ((s.implements sr f q).diesAway h.stableQ b) (e1 s) (resonance_nonneg q) hg
  · exact C135_stable n2 ((s.implements sr f q).diesAway h.stableQ b) (e2 s) (resonance_nonneg q) hg
  · exact C135_stable n3 ((s.implements sr f q).diesAway h.stableQ b) (e3 s) h.2.2.le hg
  · exact C135_stable n4 ((s.implements sr f q).diesAway h.stableQ b) (e4 s) zero_le_one (by rwa [mul_one])
  · exact C135_stable n5 ((s.implements sr f q).diesAway h.stableQ b) (e5 s) zero_le_one (by rwa [mul_one])
  · exact C135_stable n6 ((s.implements sr f q).diesAway h.stableQ b) (e6 s).2 zero_le_one (by rwa [mul_one])
  · exact C135_stable n7 ((s.implements sr f db q).diesAway (h.stablePeak db) b) (e7 s db).2 (zero_le_one.trans (le_max_left _ _)) hg

/-- **C135**, shelves. -/
theorem C135_shelves [Target] (h : ValidShelf sr f S) (db : ℝ) (hg : |g| * max 1 (dbFactor db) < 1) :
    (∀ s : LowShelf ℝ, StableInEveryLoop b g (s.setCoefficients sr f db S)) ∧
    (∀ s : HighShelf ℝ, StableInEveryLoop b g (s.setCoefficients sr f db S)) := by
  obtain ⟨-, -, -, -, -, -, -, -, -, -, -, -, -, n8, n9, -⟩ := C03_filters_and_analysers_never_panic ℝ
  obtain ⟨e8, e9⟩ := C82_shelf_energy h db
  have h0 : 0 ≤ max 1 (dbFactor db) := zero_le_one.trans (le_max_left _ _)
  exact ⟨fun s => C135_stable n8 ((s.implements sr f db S).diesAway (h.stableLow db) b) (e8 s).2 h0 hg,
    fun s => C135_stable n9 ((s.implements sr f db S).diesAway (h.stableHigh db) b) (e9 s).2 h0 hg⟩

/-- **C135**. The filters that pass constants: from `g = 1` on (for `LowShelf`, one over its gain) no loop is stable, whatever the line. So for
the ones whose largest gain is that for constants, `C135_rbj` and `C135_shelves` find all stable loops with `g ≥ 0`. -/
theorem C135_too_much [Target] (h : ValidParams sr f q) (hS : ValidShelf sr f S) (db : ℝ) :
    (1 ≤ g → (∀ s : LowPass ℝ, StableInNoLoop b g (s.setCoefficients sr f q)) ∧ (∀ s : BandStop ℝ, StableInNoLoop b g (s.setCoefficients sr f q)) ∧
      (∀ s : AllPass ℝ, StableInNoLoop b g (s.setCoefficients sr f q)) ∧ (∀ s : Peak ℝ, StableInNoLoop b g (s.setCoefficients sr f db q)) ∧
      (∀ s : HighShelf ℝ, StableInNoLoop b g (s.setCoefficients sr f db S))) ∧
    (1 ≤ g * dbFactor db → ∀ s : LowShelf ℝ, StableInNoLoop b g (s.setCoefficients sr f db S)) := by
  obtain ⟨-, -, -, -, -, -, n1, -, -, -, n5, n6, n7, n8, n9, -⟩ := C03_filters_and_analysers_never_panic ℝ
  obtain ⟨e1, -, -, -, e5, e6, e7⟩ := C39_end_gains h
  obtain ⟨e8, e9⟩ := C39_shelf_end_gains hS db
  refine ⟨fun hg => ⟨fun s => ?_, fun s => ?_, fun s => ?_, fun s => ?_, fun s => ?_⟩, fun hg s => ?_⟩
  · exact C135_constants n1 ((s.implements sr f q).diesAway h.stableQ b) (e1 s).1 (by rwa [mul_one])
  · exact C135_constants n5 ((s.implements sr f q).diesAway h.stableQ b) (e5 s).1 (by rwa [mul_one])
  · exact C135_constants n6 ((s.implements sr f q).diesAway h.stableQ b) (e6 s).1 (by rwa [mul_one])
  · exact C135_constants n7 ((s.implements sr f db q).diesAway (h.stablePeak db) b) (e7 s db).1 (by rwa [mul_one])
  · exact C135_constants n9 ((s.implements sr f db S).diesAway (hS.stableHigh db) b) (e9 s).1 (by rwa [mul_one])
  · exact C135_constants n8 ((s.implements sr f db S).diesAway (hS.stableLow db) b) (e8 s).1 hg

/-- **C135**. The filters that pass alternating signals, with a `Delay` of `d` samples: not stable from `(-1) ^ d g = 1` on (for `HighShelf`, one
over its gain). -/
theorem C135_too_much_alternating [Target] (h : ValidParams sr f q) (hS : ValidShelf sr f S) (db : ℝ) {d m : ℕ} (hm : Allocatable ℝ m) (hd : 1 ≤ d)
    (hdm : d ≤ m) :
    (1 ≤ (-1) ^ d * g → (∀ s : HighPass ℝ, ¬ StableLoop (DelayLoop b d m g (s.setCoefficients sr f q))) ∧
      (∀ s : BandStop ℝ, ¬ StableLoop (DelayLoop b d m g (s.setCoefficients sr f q))) ∧
      (∀ s : AllPass ℝ, ¬ StableLoop (DelayLoop b d m g (s.setCoefficients sr f q)))) ∧
    (1 ≤ (-1) ^ d * (g * dbFactor db) → ∀ s : HighShelf ℝ, ¬ StableLoop (DelayLoop b d m g (s.setCoefficients sr f db S))) := by
  obtain ⟨-, -, -, -, -, -, -, n2, -, -, n5, n6, -, -, n9, -⟩ := C03_filters_and_analysers_never_panic ℝ
  obtain ⟨-, e2, -, -, e5, e6, -⟩ := C39_end_gains h
  obtain ⟨-, e9⟩ := C39_shelf_end_gains hS db
  refine ⟨fun hg => ⟨fun s => ?_, fun s => ?_, fun s => ?_⟩, fun hg s => ?_⟩
  · exact C135_alternating n2 ((s.implements sr f q).diesAway h.stableQ b) (e2 s).2 hm hd hdm (by rwa [mul_one])
  · exact C135_alternating n5 ((s.implements sr f q).diesAway h.stableQ b) (e5 s).2 hm hd hdm (by rwa [mul_one])
  · exact C135_alternating n6 ((s.implements sr f q).diesAway h.stableQ b) (e6 s).2 hm hd hdm (by rwa [mul_one])
  · exact C135_alternating n9 ((s.implements sr f db S).diesAway (hS.stableHigh db) b) (e9 s).2 hm hd hdm hg

/-- **C135**. With a `Delay` of whole periods of the centre frequency, `C135_rbj` cannot be improved either: not stable are `BandPass1` at
`g = 1 / q`, `BandPass2` at `g = 1`, `Peak` at one over its gain and `AllPass` at `g = -1`. -/
theorem C135_in_tune [Target] (h : ValidParams sr f q) {d m j : ℕ} (hm : Allocatable ℝ m) (hd : 1 ≤ d) (hdm : d ≤ m) (hj : d * f = j * sr) :
    (∀ s : BandPass1 ℝ, ¬ StableLoop (DelayLoop b d m (1 / q) (s.setCoefficients sr f q))) ∧
    (∀ s : BandPass2 ℝ, ¬ StableLoop (DelayLoop b d m 1 (s.setCoefficients sr f q))) ∧
    (∀ (s : Peak ℝ) (db : ℝ), ¬ StableLoop (DelayLoop b d m (1 / dbFactor db) (s.setCoefficients sr f db q))) ∧
    (∀ s : AllPass ℝ, ¬ StableLoop (DelayLoop b d m (-1) (s.setCoefficients sr f q))) := by
  obtain ⟨-, -, -, -, -, -, -, -, n3, n4, -, n6, n7, -⟩ := C03_filters_and_analysers_never_panic ℝ
  have hsr : sr ≠ 0 := (show 0 < sr by linarith [h.1, h.2.1]).ne'
  have hP : lineResponse d (angle sr f) = 1 := by
    rw [lineResponse_nat, Complex.exp_neg, show ((angle sr f : ℝ) : ℂ) * d * Complex.I = (j : ℕ) * (2 * Real.pi * Complex.I) by
      have : angle sr f * d = j * (2 * Real.pi) := by
        unfold angle
        field_simp
        linear_combination hj
      have e : ((angle sr f * d : ℝ) : ℂ) = ((j * (2 * Real.pi) : ℝ) : ℂ) := by rw [this]
      push_cast at e
      linear_combination Complex.I * e, Complex.exp_nat_mul_two_pi_mul_I, inv_one]
  refine ⟨fun s hs => ?_, fun s hs => ?_, fun s db hs => ?_, fun s hs => ?_⟩
  · have hK := SinusoidGain.of_real (fun A φ => (C40_centre_gains h A φ).2.2.1 s)
    refine ((C135_response n3 ((s.implements sr f q).diesAway h.stableQ b) hK).1 d m hm hd hdm hs).1 ?_
    have hq : (q : ℂ) ≠ 0 := Complex.ofReal_ne_zero.mpr h.2.2.ne'
    rw [hP]; push_cast; field_simp
  · have hK : SinusoidGain (s.setCoefficients sr f q) (angle sr f) ((1 : ℝ) : ℂ) :=
      SinusoidGain.of_real (fun A φ => by simpa using (C40_centre_gains h A φ).2.1 s)
    refine ((C135_response n4 ((s.implements sr f q).diesAway h.stableQ b) hK).1 d m hm hd hdm hs).1 ?_
    rw [hP]; push_cast; ring
  · have hK := SinusoidGain.of_real (fun A φ => (C40_centre_gains h A φ).2.2.2.1 s db)
    refine ((C135_response n7 ((s.implements sr f db q).diesAway (h.stablePeak db) b) hK).1 d m hm hd hdm hs).1 ?_
    have h0 : dbFactor db ≠ 0 := by unfold dbFactor; positivity
    have hq : (dbFactor db : ℂ) ≠ 0 := Complex.ofReal_ne_zero.mpr h0
    rw [hP]; push_cast; field_simp
  · have hK : SinusoidGain (s.setCoefficients sr f q) (angle sr f) ((-1 : ℝ) : ℂ) :=
      SinusoidGain.of_real (fun A φ => by simpa using (C40_centre_gains h A φ).2.2.2.2.1 s)
    refine ((C135_response n6 ((s.implements sr f q).diesAway h.stableQ b) hK).1 d m hm hd hdm hs).1 ?_
    rw [hP]; push_cast; ring

/-- A `LowPass` without resonance in a loop of 100 samples: stable when 99 % is fed back, not when all of it is. -/
example [Target] (s : LowPass ℝ) : (∃ u, DelayLoop b 100 100 0.99 (s.setCoefficients 48000 1000 0.5) unitImpulse u) ∧
    StableLoop (DelayLoop b 100 100 0.99 (s.setCoefficients 48000 1000 0.5)) ∧ ¬ StableLoop (DelayLoop b 100 100 1 (s.setCoefficients 48000 1000 0.5)) := by
  have hm : Allocatable ℝ 100 := by show (100 + 1) * 8 ≤ isizeMax; have := target; omega
  have hv : ValidParams (48000 : ℝ) 1000 0.5 := ⟨by norm_num, by norm_num, by norm_num⟩
  have hS : ValidShelf (48000 : ℝ) 1000 1 := ⟨by norm_num, by norm_num, by norm_num, by norm_num⟩
  have h1 : StableLoop (DelayLoop b 100 100 0.99 (s.setCoefficients 48000 1000 0.5)) :=
    ((C135_rbj hv).1 s (by rw [resonance, if_pos (by norm_num)]; norm_num)).1 100 100 hm (by norm_num) le_rfl
  exact ⟨h1.1 _, h1, (((C135_too_much hv hS 0).1 le_rfl).1 s).1 100 100 hm (by norm_num) le_rfl⟩

end

end Rasp
