import Verif.Spec.TapResponse
import Verif.Spec.MetersFloat
import Verif.Spec.Noise
import Verif.Props.MultiTap
import Verif.Props.Resonance
import Verif.Lemmas.RoundErr

/-!
# C155: frequency responses of finite impulse responses built from taps
-/

namespace Rasp
open FloatOps

section program
variable {T : Type} [FloatOps T] {b : Build}

theorem Gathers.unique {σ : Type} [Processor σ T] [TappableDelayLine σ T] {taps : List (T × ℕ)} {s : σ} {x y z : ℕ → T}
    (hy : Gathers b taps s x y) (hz : Gathers b taps s x z) : y = z := by
  obtain ⟨st, h0, h1⟩ := hy
  obtain ⟨st', h0', h1'⟩ := hz
  have e : ∀ n, st n = st' n := fun n => by
    induction n with
    | zero => rw [h0, h0']
    | succ n ih =>
      have a := h1 n
      rw [ih, h1' n] at a
      exact (Prod.mk.inj (Except.ok.inj a)).1.symm
  funext n
  have a := h1 n
  rw [e, h1' n] at a
  exact (Prod.mk.inj (Except.ok.inj a)).2.symm

/-- **C155**. A new `Delay` with its taps read after every sample computes the finite impulse response and nothing else. -/
theorem C155_delay [Target] {d m : ℕ} (hm : Allocatable T m) {taps : List (T × ℕ)} (ht : ∀ p ∈ taps, p.2 ≤ m) {s : Delay T}
    (hs : Delay.new b d m = .ok s) : IsTapFir b taps s := by
  intro x y
  obtain ⟨s', hs', hg⟩ := C116_delay_gather (b := b) (d := d) hm taps ht x
  obtain rfl := Except.ok.inj (hs.symm.trans hs')
  exact ⟨fun h => h.unique hg, fun h => h ▸ hg⟩

end program

/-- **C155**. So does a new `LinearDelay`, in exact arithmetic, whatever its delay. -/
theorem C155_linearDelay [Target] {b : Build} {m : ℕ} (hm : Allocatable ℝ m) {d : ℝ} {taps : List (ℝ × ℕ)} (ht : ∀ p ∈ taps, p.2 ≤ m)
    {s : LinearDelay ℝ ℝ} (hs : LinearDelay.new b d m = .ok s) : IsTapFir b taps s := by
  intro x y
  rw [C116_linear_gather hm ht hs]
  obtain ⟨s', hs', -, hi⟩ := C20_new_interpolates (b := b) hm d
  obtain rfl := Except.ok.inj (hs.symm.trans hs')
  exact ⟨fun h => h.2, fun h => ⟨⟨_, (hi _ _).mpr rfl⟩, h⟩⟩

/-! ## Sinusoids -/

section response
variable {b : Build} {σ : Type} [Processor σ ℝ] [TappableDelayLine σ ℝ] {s : σ} {taps : List (ℝ × ℕ)} {x y : ℕ → ℝ} {A ω φ : ℝ} {M : ℕ}

theorem fir_eq_sum (taps : List (ℝ × ℕ)) (x : ℕ → ℝ) (n : ℕ) : fir taps x n = (taps.map fun p => p.1 * lag x p.2 n).sum := by
  unfold fir
  have : ∀ acc : ℝ, taps.foldl (fun acc p => acc +. p.1 *. lag x p.2 n) acc = acc + (taps.map fun p => p.1 * lag x p.2 n).sum := by
    induction taps with
    | nil => simp
    | cons p taps ih =>
      intro acc
      rw [List.foldl_cons, ih, List.map_cons, List.sum_cons]
      show acc + p.1 * _ + _ = _
      ring
  rw [this]
  show (0 : ℝ) + _ = _
  rw [zero_add]

theorem fir_phasor {n : ℕ} (ht : ∀ p ∈ taps, p.2 ≤ n) (z : ℂ) : fir taps (phasor z ω) n = phasor (tapResponse taps ω * z) ω n := by
  rw [fir_eq_sum]
  unfold tapResponse
  induction taps with
  | nil => simp [phasor]
  | cons p taps ih =>
    rw [List.map_cons, List.sum_cons, List.map_cons, List.sum_cons, ih fun q hq => ht q (by simp [hq]), add_mul, phasor_add, mul_assoc, phasor_real_mul,
      ← phasor_shift z ω (ht p (by simp))]
    unfold lag
    rw [if_pos (ht p (by simp))]

theorem input_phasor (hx : ∀ n, x n = A * Real.cos (ω * n + φ)) : x = phasor (A * Complex.exp (φ * Complex.I)) ω :=
  funext fun n => by rw [hx, phasor_input]

/-- **C155**. As soon as all taps have been reached, a sinusoid comes out as a sinusoid, exactly: there is no transient. -/
theorem C155_response (hs : IsTapFir b taps s) (ht : ∀ p ∈ taps, p.2 ≤ M) (hx : ∀ n, x n = A * Real.cos (ω * n + φ)) (hy : Gathers b taps s x y) :
    RespondsFrom M y A ω φ (tapResponse taps ω) := by
  intro n hn
  rw [(hs x y).mp hy, input_phasor hx, fir_phasor fun p hp => (ht p hp).trans hn, phasor_gain]

theorem norm_turn (t : ℝ) : ‖Complex.exp (-(t * Complex.I))‖ = 1 := by
  rw [show (-(t * Complex.I) : ℂ) = ((-t : ℝ) : ℂ) * Complex.I by push_cast; ring, Complex.norm_exp_ofReal_mul_I]

/-- **C155**. No frequency is amplified by more than the sum of the magnitudes of the weights. -/
theorem C155_gain_le (taps : List (ℝ × ℕ)) (ω : ℝ) : ‖tapResponse taps ω‖ ≤ weight taps := by
  unfold tapResponse weight
  induction taps with
  | nil => simp
  | cons p taps ih =>
    rw [List.map_cons, List.sum_cons, List.map_cons, List.sum_cons]
    refine (norm_add_le _ _).trans (add_le_add ?_ ih)
    have := norm_turn (ω * p.2)
    push_cast at this
    rw [norm_mul, this, mul_one, Complex.norm_real, Real.norm_eq_abs]

/-- **C155**, linear phase. If the taps read the same from the front and from the back of `M` samples, every sinusoid comes out delayed by `M / 2`
samples, multiplied by a real number of magnitude `‖H‖`. -/
theorem C155_linear_phase (hs : IsTapFir b taps s) (ht : ∀ p ∈ taps, p.2 ≤ M) (hp : (taps.map fun p => (p.1, M - p.2)).Perm taps) (ω : ℝ) :
    ∃ r : ℝ, |r| = ‖tapResponse taps ω‖ ∧ ∀ A φ x y, (∀ n : ℕ, x n = A * Real.cos (ω * n + φ)) → Gathers b taps s x y →
      ∀ n ≥ M, y n = r * (A * Real.cos (ω * (n - M / 2) + φ)) := by
  obtain ⟨r, hr⟩ : ∃ r : ℝ, tapResponse taps ω = r * Complex.exp (-(ω * (M / 2 : ℝ) * Complex.I)) := by
    obtain ⟨K, hK⟩ : ∃ K, K = (taps.map fun p => (p.1 : ℂ) * Complex.exp (((ω * (M / 2 - p.2) : ℝ) : ℂ) * Complex.I)).sum := ⟨_, rfl⟩
    have h1 : tapResponse taps ω = K * Complex.exp (-(ω * (M / 2 : ℝ) * Complex.I)) := by
      rw [hK, ← List.sum_map_mul_right]
      unfold tapResponse
      congr 1
      refine List.map_congr_left fun p _ => ?_
      rw [mul_assoc (p.1 : ℂ), ← Complex.exp_add]
      congr 2
      push_cast
      ring
    have h2 : (starRingEnd ℂ) K = K := by
      rw [hK, map_list_sum, List.map_map, ← ((hp.map fun p : ℝ × ℕ => (p.1 : ℂ) * Complex.exp (((ω * (M / 2 - p.2) : ℝ) : ℂ) * Complex.I)).sum_eq),
        List.map_map]
      congr 1
      refine List.map_congr_left fun p hp => ?_
      simp only [Function.comp]
      rw [map_mul, Complex.conj_ofReal, ← Complex.exp_conj, map_mul, Complex.conj_ofReal, Complex.conj_I, Nat.cast_sub (ht p hp)]
      congr 2
      push_cast
      ring
    obtain ⟨r, hr⟩ := Complex.conj_eq_iff_real.mp h2
    exact ⟨r, by rw [h1, hr]⟩
  refine ⟨r, ?_, ?_⟩
  · have := norm_turn (ω * (M / 2))
    push_cast at this hr
    rw [hr, norm_mul, this, mul_one, Complex.norm_real, Real.norm_eq_abs]
  · intro A φ x y hx hy n hn
    rw [(hs x y).mp hy, input_phasor hx, fir_phasor fun p hp => (ht p hp).trans hn, hr, mul_assoc, phasor_real_mul]
    congr 1
    have e : Complex.exp (-(ω * (M / 2 : ℝ) * Complex.I)) * (A * Complex.exp (φ * Complex.I)) =
        A * Complex.exp (((φ - ω * (M / 2) : ℝ) : ℂ) * Complex.I) := by
      rw [mul_left_comm, ← Complex.exp_add]
      congr 2
      push_cast
      ring
    rw [e, phasor_input]
    congr 2
    ring

/-! ## Running averages -/

theorem averageTaps_le {N : ℕ} (hN : 1 ≤ N) : ∀ p ∈ averageTaps N, p.2 ≤ N - 1 := by
  intro p hp
  obtain ⟨k, hk, rfl⟩ := List.mem_map.1 hp
  have := List.mem_range.1 hk
  show k ≤ N - 1
  omega

theorem norm_one_sub_turn (t : ℝ) : ‖1 - Complex.exp (-(t * Complex.I))‖ = 2 * |Real.sin (t / 2)| := by
  have e : 1 - Complex.exp (-(t * Complex.I)) =
      Complex.exp (((-(t / 2) : ℝ) : ℂ) * Complex.I) * (((2 * Real.sin (t / 2) : ℝ) : ℂ) * Complex.I) := by
    have h1 : Complex.exp (-(t * Complex.I)) = Complex.exp (((-(t / 2) : ℝ) : ℂ) * Complex.I) * Complex.exp (((-(t / 2) : ℝ) : ℂ) * Complex.I) := by
      rw [← Complex.exp_add]; congr 1; push_cast; ring
    have h2 : (1 : ℂ) = Complex.exp (((-(t / 2) : ℝ) : ℂ) * Complex.I) * Complex.exp (((t / 2 : ℝ) : ℂ) * Complex.I) := by
      rw [← Complex.exp_add, show (((-(t / 2) : ℝ) : ℂ) * Complex.I + ((t / 2 : ℝ) : ℂ) * Complex.I) = 0 by push_cast; ring, Complex.exp_zero]
    have h3 : Complex.exp (((t / 2 : ℝ) : ℂ) * Complex.I) - Complex.exp (((-(t / 2) : ℝ) : ℂ) * Complex.I) = ((2 * Real.sin (t / 2) : ℝ) : ℂ) * Complex.I := by
      apply Complex.ext
      · rw [Complex.sub_re, Complex.exp_ofReal_mul_I_re, Complex.exp_ofReal_mul_I_re, Real.cos_neg, sub_self, Complex.re_ofReal_mul, Complex.I_re, mul_zero]
      · rw [Complex.sub_im, Complex.exp_ofReal_mul_I_im, Complex.exp_ofReal_mul_I_im, Real.sin_neg, Complex.im_ofReal_mul, Complex.I_im]; ring
    rw [← h3, mul_sub, ← h2, ← h1]
  rw [e, norm_mul, Complex.norm_exp_ofReal_mul_I, one_mul, norm_mul, Complex.norm_I, mul_one, Complex.norm_real, Real.norm_eq_abs, abs_mul]
  norm_num

/-- **C155**, running averages: the gain at `ω` is `|sin (Nω/2)| / (N |sin (ω/2)|)`. -/
theorem C155_average_gain {N : ℕ} (hN : 1 ≤ N) (ω : ℝ) :
    ‖tapResponse (averageTaps N) ω‖ * (N * |Real.sin (ω / 2)|) = |Real.sin (N * ω / 2)| := by
  have hN0 : (N : ℂ) ≠ 0 := by exact_mod_cast (by omega : N ≠ 0)
  have e : tapResponse (averageTaps N) ω * (N * (1 - Complex.exp (-(ω * Complex.I)))) = 1 - Complex.exp (-((N * ω : ℝ) * Complex.I)) := by
    have h1 : tapResponse (averageTaps N) ω = 1 / N * ∑ k ∈ Finset.range N, Complex.exp (-(ω * Complex.I)) ^ k := by
      unfold tapResponse averageTaps
      rw [List.map_map, Finset.mul_sum, Finset.sum_range]
      rw [← List.sum_ofFn]
      congr 1
      rw [List.ofFn_eq_map, ← List.map_coe_finRange_eq_range, List.map_map]
      refine List.map_congr_left fun k _ => ?_
      simp only [Function.comp]
      rw [← Complex.exp_nat_mul]
      push_cast
      congr 2
      ring
    rw [h1]
    have h2 := geom_sum_mul_neg (Complex.exp (-(ω * Complex.I))) N
    have h3 : Complex.exp (-(ω * Complex.I)) ^ N = Complex.exp (-((N * ω : ℝ) * Complex.I)) := by
      rw [← Complex.exp_nat_mul]; congr 1; push_cast; ring
    rw [← h3, ← h2]
    field_simp
  have := congrArg norm e
  rw [norm_mul, norm_mul, norm_one_sub_turn, norm_one_sub_turn, Complex.norm_natCast] at this
  linarith

/-- **C155**, running averages: whatever repeats every `N` samples leaves its mean exactly, as soon as `N` samples have come in. -/
theorem C155_average_period {N : ℕ} (hN : 1 ≤ N) (hs : IsTapFir b (averageTaps N) s) (hx : ∀ n, x (n + N) = x n) (hy : Gathers b (averageTaps N) s x y)
    {n : ℕ} (hn : N - 1 ≤ n) : y n = (∑ k ∈ Finset.range N, x k) / N := by
  rw [(hs x y).mp hy, fir_eq_sum]
  have h1 : ((averageTaps N).map fun p => p.1 * lag x p.2 n).sum = (∑ k ∈ Finset.range N, x (n - k)) / N := by
    unfold averageTaps
    rw [List.map_map, Finset.sum_div, Finset.sum_range, ← List.sum_ofFn, List.ofFn_eq_map, ← List.map_coe_finRange_eq_range, List.map_map]
    congr 1
    refine List.map_congr_left fun k _ => ?_
    simp only [Function.comp]
    unfold lag
    rw [if_pos (by have := k.2; omega)]
    ring
  rw [h1]
  congr 1
  have h2 : ∀ j, ∑ k ∈ Finset.range N, x (j + k) = ∑ k ∈ Finset.range N, x k := fun j => by
    induction j with
    | zero => simp
    | succ j ih =>
      rw [← ih]
      have a := Finset.sum_range_succ (fun k => x (j + k)) N
      have c := Finset.sum_range_succ' (fun k => x (j + k)) N
      rw [a] at c
      rw [hx, add_zero] at c
      have := add_right_cancel c
      rw [this]
      exact Finset.sum_congr rfl fun k _ => by congr 1; ring
  rw [← h2 (n - (N - 1)), ← Finset.sum_range_reflect]
  exact Finset.sum_congr rfl fun k hk => by
    have := Finset.mem_range.1 hk
    congr 1; omega

/-! ## Echoes and flangers -/

theorem norm_one_add_turn (a t : ℝ) : ‖1 + a * Complex.exp (-(t * Complex.I))‖ ^ 2 = 1 + 2 * a * Real.cos t + a ^ 2 := by
  rw [show (-(t * Complex.I) : ℂ) = ((-t : ℝ) : ℂ) * Complex.I by push_cast; ring, ← Complex.normSq_eq_norm_sq, Complex.normSq_apply, Complex.add_re,
    Complex.add_im, Complex.re_ofReal_mul, Complex.im_ofReal_mul, Complex.exp_ofReal_mul_I_re, Complex.exp_ofReal_mul_I_im, Complex.one_re, Complex.one_im,
    Real.cos_neg, Real.sin_neg]
  have := Real.sin_sq_add_cos_sq t
  linear_combination a ^ 2 * this

theorem tapResponse_echo (g : ℝ) (d : ℕ) (ω : ℝ) : tapResponse (echoTaps g d) ω = 1 + g * Complex.exp (-((ω * d : ℝ) * Complex.I)) := by
  unfold tapResponse echoTaps
  simp only [List.map_cons, List.map_nil, List.sum_cons, List.sum_nil, add_zero]
  show ((1 : ℝ) : ℂ) * _ + _ = _
  push_cast
  simp

/-- **C155**, an echo `d` samples later with weight `g`: the gain at `ω` is the root of `1 + 2g cos (ωd) + g²`. -/
theorem C155_echo (g : ℝ) (d : ℕ) (ω : ℝ) : ‖tapResponse (echoTaps g d) ω‖ ^ 2 = 1 + 2 * g * Real.cos (ω * d) + g ^ 2 := by
  rw [tapResponse_echo, norm_one_add_turn]

/-- **C155**. Feeding the output of a new `LinearDelay` forward (a flanger) makes `1 + g P` of a sinusoid, where `P` is what interpolation makes of it,
exactly from sample `⌊d⌋ + 1` on. -/
theorem C155_flanger [Target] {m : ℕ} (hm : Allocatable ℝ m) {d g : ℝ} (hd : 0 ≤ d) (hdm : d ≤ m) {s : LinearDelay ℝ ℝ} (hs : LinearDelay.new b d m = .ok s)
    (hx : ∀ n, x n = A * Real.cos (ω * n + φ)) (hy : FeedsForward b s g x y) : RespondsFrom (⌊d⌋₊ + 1) y A ω φ (1 + g * lineResponse d ω) := by
  obtain ⟨s', hs', -, hi⟩ := C20_new_interpolates (b := b) hm d
  obtain rfl := Except.ok.inj (hs.symm.trans hs')
  obtain ⟨v, hv, hy⟩ := hy
  rw [hi, min_eq_left hdm, max_eq_right hd] at hv
  intro n hn
  rw [hy n, hv, ← phasor_gain, add_mul, phasor_add, one_mul, mul_assoc (g : ℂ), phasor_real_mul g, input_phasor hx, interp_phasor _ _ hn]
  rfl

/-- **C155**. Where the sinusoid is turned by `t` and weakened to `a` in the line, the gain of the flanger is the root of `1 + 2ga cos t + (ga)²`; whole delays turn
by `ωd` and weaken nothing, half samples between weaken to `|cos (ω/2)|`. -/
theorem C155_flanger_gain (g ω : ℝ) (k : ℕ) :
    ‖1 + g * lineResponse k ω‖ ^ 2 = 1 + 2 * g * Real.cos (ω * k) + g ^ 2 ∧
    ‖1 + g * lineResponse (k + 1 / 2) ω‖ ^ 2 =
      1 + 2 * (g * Real.cos (ω / 2)) * Real.cos (ω * (k + 1 / 2)) + (g * Real.cos (ω / 2)) ^ 2 := by
  refine ⟨?_, ?_⟩
  · rw [lineResponse_nat]
    have := norm_one_add_turn g (ω * k)
    push_cast at this
    exact_mod_cast this
  · have hf : ⌊(k : ℝ) + 1 / 2⌋₊ = k := by
      rw [Nat.floor_eq_iff (by positivity)]
      constructor <;> linarith
    have e : lineResponse (k + 1 / 2) ω = (Real.cos (ω / 2) : ℝ) * Complex.exp (-((ω * (k + 1 / 2) : ℝ) * Complex.I)) := by
      unfold lineResponse
      rw [hf, Complex.ofReal_cos, Complex.cos]
      have h1 : Complex.exp (-(ω * k * Complex.I)) = Complex.exp (((ω / 2 : ℝ) : ℂ) * Complex.I) * Complex.exp (-((ω * (k + 1 / 2) : ℝ) * Complex.I)) := by
        rw [← Complex.exp_add]; congr 1; push_cast; ring
      have h2 : Complex.exp (-(ω * (k + 1) * Complex.I)) = Complex.exp (-((ω / 2 : ℝ) : ℂ) * Complex.I) * Complex.exp (-((ω * (k + 1 / 2) : ℝ) * Complex.I)) := by
        rw [← Complex.exp_add]; congr 1; push_cast; ring
      rw [h1, h2]
      push_cast
      ring
    rw [e, ← mul_assoc, ← Complex.ofReal_mul, norm_one_add_turn]

/-- **C155**, notches. A whole delay cancels the frequencies it turns by half a turn exactly; the interpolated delay half a sample longer leaves
`1 - cos (ω/2)` of them. -/
theorem C155_notch {ω : ℝ} {k : ℕ} :
    (ω * k = Real.pi → 1 + (1 : ℝ) * lineResponse k ω = 0) ∧
    (ω * (k + 1 / 2) = Real.pi → ‖1 + (1 : ℝ) * lineResponse (k + 1 / 2) ω‖ = 1 - Real.cos (ω / 2)) := by
  refine ⟨fun h => ?_, fun h => ?_⟩
  · have := (C155_flanger_gain 1 ω k).1
    rw [h, Real.cos_pi] at this
    rw [← norm_eq_zero]
    nlinarith
  · have := (C155_flanger_gain 1 ω k).2
    rw [h, Real.cos_pi] at this
    have h0 := norm_nonneg (1 + (1 : ℝ) * lineResponse (k + 1 / 2) ω)
    have h1 := Real.cos_le_one (ω / 2)
    have h2 : ‖1 + (1 : ℝ) * lineResponse (k + 1 / 2) ω‖ ^ 2 = (1 - Real.cos (ω / 2)) ^ 2 := by rw [this]; ring
    exact (sq_eq_sq₀ h0 (by linarith)).mp h2

/-! ## Headroom and noise -/

theorem lag_le {x : ℕ → ℝ} {X : ℝ} (hX : 0 ≤ X) (hx : ∀ n, |x n| ≤ X) (k n : ℕ) : |lag x k n| ≤ X := by
  unfold lag
  split
  · exact hx _
  · show |(0 : ℝ)| ≤ X
    rwa [abs_zero]

theorem fir_le {x : ℕ → ℝ} {X : ℝ} (hX : 0 ≤ X) (hx : ∀ n, |x n| ≤ X) (taps : List (ℝ × ℕ)) (n : ℕ) : |fir taps x n| ≤ weight taps * X := by
  rw [fir_eq_sum]
  unfold weight
  induction taps with
  | nil => simp
  | cons p taps ih =>
    rw [List.map_cons, List.sum_cons, List.map_cons, List.sum_cons, add_mul]
    refine (abs_add_le _ _).trans (add_le_add ?_ ih)
    rw [abs_mul]
    exact mul_le_mul_of_nonneg_left (lag_le hX hx _ _) (abs_nonneg _)

/-- **C155**, headroom. With no delay tapped twice, the largest output over all inputs between −1 and 1 is the sum of the magnitudes of the weights. -/
theorem C155_headroom (hs : IsTapFir b taps s) (hn : (taps.map Prod.snd).Nodup) :
    IsLUB {v : ℝ | ∃ (x y : ℕ → ℝ) (n : ℕ), (∀ k, |x k| ≤ 1) ∧ Gathers b taps s x y ∧ v = |y n|} (weight taps) := by
  refine ⟨?_, fun B hB => hB ?_⟩
  · rintro v ⟨x, y, n, hx, hy, rfl⟩
    rw [(hs x y).mp hy]
    have := fir_le zero_le_one hx taps n
    rwa [mul_one] at this
  · obtain ⟨M, hM⟩ : ∃ M, ∀ p ∈ taps, p.2 ≤ M := ⟨(taps.map Prod.snd).sum, fun p hp => List.le_sum_of_mem (List.mem_map.2 ⟨p, hp, rfl⟩)⟩
    -- the input that meets every weight with its own sign
    obtain ⟨x, hx1, hx2⟩ : ∃ x : ℕ → ℝ, (∀ k, |x k| ≤ 1) ∧ ∀ p ∈ taps, p.1 * x (M - p.2) = |p.1| := by
      classical
      refine ⟨fun j => if h : ∃ p ∈ taps, M - p.2 = j then SignType.sign h.choose.1 else 0, fun k => ?_, fun p hp => ?_⟩
      · beta_reduce
        split
        · rename_i h
          generalize SignType.sign h.choose.1 = e
          cases e <;> simp
        · simp
      · have h : ∃ q ∈ taps, M - q.2 = M - p.2 := ⟨p, hp, rfl⟩
        beta_reduce
        rw [dif_pos h]
        have e : h.choose = p := by
          have h1 := h.choose_spec
          have h2 : h.choose.2 = p.2 := by have := hM p hp; have := hM _ h1.1; omega
          exact List.inj_on_of_nodup_map hn h1.1 hp h2
        rw [e, self_mul_sign]
    refine ⟨x, fir taps x, M, hx1, (hs _ _).mpr rfl, ?_⟩
    rw [fir_eq_sum]
    have : (taps.map fun p => p.1 * lag x p.2 M) = taps.map fun p => |p.1| := by
      refine List.map_congr_left fun p hp => ?_
      unfold lag
      rw [if_pos (hM p hp), hx2 p hp]
    rw [this]
    show weight taps = |weight taps|
    refine (abs_of_nonneg (List.sum_nonneg ?_)).symm
    intro v hv
    obtain ⟨p, -, rfl⟩ := List.mem_map.1 hv
    exact abs_nonneg _

open MeasureTheory in
/-- **C155**, noise. With no delay tapped twice, white noise of power `P` comes out with `P` times the sum of the squares of the weights, exactly, as soon
as all taps have been reached. -/
theorem C155_noise (hs : IsTapFir b taps s) (hn : (taps.map Prod.snd).Nodup) {Ω : Type} [MeasurableSpace Ω] {μ : Measure Ω} {P : ℝ} {x y : ℕ → Ω → ℝ}
    (hx : WhiteNoise μ x P) (hy : ∀ w, Gathers b taps s (fun n => x n w) (fun n => y n w)) {n : ℕ} (ht : ∀ p ∈ taps, p.2 ≤ n) :
    ∫ w, y n w ^ 2 ∂μ = P * (taps.map fun p => p.1 ^ 2).sum := by
  have e : ∀ w, y n w ^ 2 = ∑ i : Fin taps.length, ∑ j : Fin taps.length,
      taps[i].1 * taps[j].1 * (x (n - taps[i].2) w * x (n - taps[j].2) w) := fun w => by
    have h1 : y n w = ∑ i : Fin taps.length, taps[i].1 * x (n - taps[i].2) w := by
      have := congrFun ((hs _ _).mp (hy w)) n
      rw [this, fir_eq_sum, ← Fin.sum_univ_fun_getElem]
      refine Finset.sum_congr rfl fun i _ => ?_
      unfold lag
      rw [if_pos (ht _ (List.getElem_mem _))]
      rfl
    rw [h1, sq, Finset.sum_mul_sum]
    exact Finset.sum_congr rfl fun i _ => Finset.sum_congr rfl fun j _ => by ring
  simp only [e]
  rw [integral_finsetSum _ fun i _ => integrable_finsetSum _ fun j _ => ((hx _ _).1.const_mul _)]
  have h2 : ∀ i : Fin taps.length, ∫ w, ∑ j : Fin taps.length, taps[i].1 * taps[j].1 * (x (n - taps[i].2) w * x (n - taps[j].2) w) ∂μ = P * taps[i].1 ^ 2 := fun i => by
    rw [integral_finsetSum _ fun j _ => ((hx _ _).1.const_mul _), Finset.sum_eq_single i]
    · rw [integral_const_mul, (hx _ _).2, if_pos rfl]; ring
    · intro j _ hij
      rw [integral_const_mul, (hx _ _).2, if_neg, mul_zero]
      intro h
      have h1 := ht taps[i] (List.getElem_mem _)
      have h2 := ht taps[j] (List.getElem_mem _)
      have h3 : taps[i].2 = taps[j].2 := by omega
      have h4 := (List.nodup_iff_injective_get.mp hn) (a₁ := ⟨i, by simp⟩) (a₂ := ⟨j, by simp⟩) (by simpa using h3)
      exact hij (Fin.ext (by simpa using (Fin.mk.inj_iff.mp h4).symm))
    · intro h; exact absurd (Finset.mem_univ i) h
  simp only [h2]
  rw [← Finset.mul_sum, ← Fin.sum_univ_fun_getElem]
  rfl

/-- A quarter, a half and a quarter read the same from both ends, so every sinusoid is one sample late. -/
example [Target] (hm : Allocatable ℝ 2) : ∃ s : Delay ℝ, Delay.new b 0 2 = .ok s ∧ ∃ r : ℝ, ∀ x y, (∀ n : ℕ, x n = 3 * Real.cos (1 * n + 0)) →
    Gathers b [((1 / 4 : ℝ), 0), (1 / 2, 1), (1 / 4, 2)] s x y → ∀ n ≥ 2, y n = r * (3 * Real.cos (1 * (n - (2 : ℕ) / 2) + 0)) := by
  obtain ⟨s, hs, -⟩ := C116_delay_gather (b := b) (d := 0) hm [] (by simp) (fun _ => 0)
  have hp : (([((1 / 4 : ℝ), 0), (1 / 2, 1), (1 / 4, 2)] : List (ℝ × ℕ)).map fun p => (p.1, 2 - p.2)).Perm [((1 / 4 : ℝ), 0), (1 / 2, 1), (1 / 4, 2)] := by
    have := List.reverse_perm [((1 / 4 : ℝ), 0), (1 / 2, 1), (1 / 4, 2)]
    simpa using this
  obtain ⟨r, -, h⟩ := C155_linear_phase (C155_delay hm (by simp) hs) (by simp) hp 1
  exact ⟨s, hs, r, fun x y hx hy => h 3 0 x y hx hy⟩

/-- The average of two samples lets nothing of half the sample rate through. -/
example : ‖tapResponse (averageTaps 2) Real.pi‖ = 0 := by
  have := C155_average_gain (N := 2) (by norm_num) Real.pi
  rw [Real.sin_pi_div_two, show ((2 : ℕ) : ℝ) * Real.pi / 2 = Real.pi by push_cast; ring, Real.sin_pi] at this
  norm_num at this
  rw [this, norm_zero]

end response

/-! ## Floating point -/

section float
variable {f : Fmt} {L : Libm f} {b : Build} {taps : List (Fl L × ℕ)} {X : ℝ}

private theorem step_err {u τ B k P m Q e a t p c r : ℝ} (hu : 0 < u) (hu4 : u ≤ 1 / 4) (hτ : 0 < τ) (hk : 0 ≤ k) (hku : 4 * ((k + 1) * u) ≤ 1) (hB : B = 4 * (u * Q + τ))
    (hPm : P + m ≤ Q) (hm : 0 ≤ m) (hP : 0 ≤ P) (he : e = k * B) (ha : |a - t| ≤ e) (ht : |t| ≤ P) (hp : |p - c| ≤ u * |c| + τ) (hc : |c| ≤ m)
    (hr : |r - (a + p)| ≤ u * |a + p| + τ) : |a + p| ≤ 5 * (Q + (k + 1) * τ) ∧ |r - (t + c)| ≤ (k + 1) * B := by
  have hQ : 0 ≤ Q := by linarith
  have h1 : |p - c| ≤ u * m + τ := hp.trans (by nlinarith)
  have h2 : |a + p| ≤ e + P + (u * m + τ) + m := by
    rw [show a + p = (a - t) + t + (p - c) + c by ring]
    refine (abs_add_le _ _).trans (add_le_add ((abs_add_le _ _).trans (add_le_add ((abs_add_le _ _).trans (add_le_add ha ht)) h1)) hc)
  have h3 : u * m ≤ u * Q := by nlinarith
  have h4 : u * Q ≤ 1 / 4 * Q := by nlinarith
  have hkuQ : 4 * (k + 1) * u * Q ≤ Q := by nlinarith
  have h5 : e ≤ Q - 4 * (u * Q) + 4 * k * τ := by rw [he, hB]; nlinarith
  refine ⟨?_, ?_⟩
  · nlinarith [mul_nonneg hk hτ.le, mul_nonneg hu.le hQ]
  · have h6 : |r - (t + c)| ≤ (u * |a + p| + τ) + e + (u * m + τ) := by
      rw [show r - (t + c) = (r - (a + p)) + (a - t) + (p - c) by ring]
      exact (abs_add_le _ _).trans (add_le_add ((abs_add_le _ _).trans (add_le_add hr ha)) h1)
    have h7 : u * |a + p| ≤ u * (e + Q + u * Q + τ) := mul_le_mul_of_nonneg_left (by linarith) hu.le
    have h8 : u * e ≤ 1 / 4 * B := by
      have : 0 ≤ B := by rw [hB]; positivity
      rw [he]; nlinarith
    have h9 : u * (u * Q) ≤ 1 / 4 * (u * Q) := mul_le_mul_of_nonneg_right hu4 (by positivity)
    have h10 : u * τ ≤ 1 / 4 * τ := mul_le_mul_of_nonneg_right hu4 hτ.le
    have h11 : 0 ≤ u * Q := by positivity
    rw [show (k + 1) * B = e + B by rw [he]; ring]
    nlinarith

private theorem foldl_err {x : ℕ → Fl L} (hX : 0 ≤ X) (hx : ∀ n, (x n).Within X) {Q N : ℝ} (hN : 4 * (N * f.u) ≤ 1) (hov : 5 * (Q + N * f.tiny) ≤ 2 ^ f.emax) (n : ℕ)
    (taps : List (Fl L × ℕ)) (hf : ∀ p ∈ taps, p.1.Finite) (k P t : ℝ) (acc : Fl L) (hk : 0 ≤ k) (hP : 0 ≤ P) (hkN : k + taps.length ≤ N)
    (hPQ : P + weight (exactTaps taps) * X ≤ Q) (hacc : acc.Finite) (ht : |t| ≤ P) (he : |acc.toReal - t| ≤ k * (4 * (f.u * Q + f.tiny))) :
    (taps.foldl (fun acc p => acc +. p.1 *. lag x p.2 n) acc).Finite ∧
    |(taps.foldl (fun acc p => acc +. p.1 *. lag x p.2 n) acc).toReal -
      (t + ((exactTaps taps).map fun p => p.1 * lag (fun n => (x n).toReal) p.2 n).sum)| ≤ (k + taps.length) * (4 * (f.u * Q + f.tiny)) := by
  have hu := f.u_pos
  have hτ := f.tiny_pos
  induction taps generalizing k P t acc with
  | nil => simpa [exactTaps] using ⟨hacc, he⟩
  | cons p taps ih =>
    rw [List.length_cons] at hkN
    push_cast at hkN
    have hwe : weight (exactTaps (p :: taps)) = |p.1.toReal| + weight (exactTaps taps) := by simp [weight, exactTaps]
    have hw0 : 0 ≤ weight (exactTaps taps) := by
      unfold weight
      refine List.sum_nonneg fun v hv => ?_
      obtain ⟨q, -, rfl⟩ := List.mem_map.1 hv
      exact abs_nonneg _
    rw [hwe, add_mul] at hPQ
    have hlag : (lag x p.2 n).Finite ∧ |(lag x p.2 n).toReal| ≤ X ∧ (lag x p.2 n).toReal = lag (fun n => (x n).toReal) p.2 n := by
      unfold lag
      split
      · exact ⟨(hx _).1, (hx _).2, rfl⟩
      · exact ⟨Fl.zero_finite, by rw [Fl.zero_toReal, abs_zero]; exact hX, Fl.zero_toReal⟩
    obtain ⟨l1, l2, l3⟩ := hlag
    have hm : |p.1.toReal * (lag x p.2 n).toReal| ≤ |p.1.toReal| * X := by
      rw [abs_mul]; exact mul_le_mul_of_nonneg_left l2 (abs_nonneg _)
    have hm0 : 0 ≤ |p.1.toReal| * X := mul_nonneg (abs_nonneg _) hX
    have hlen : (0 : ℝ) ≤ taps.length := Nat.cast_nonneg _
    have hwX : 0 ≤ weight (exactTaps taps) * X := mul_nonneg hw0 hX
    have hQ0 : 0 ≤ Q := by linarith
    have hN0 : 0 ≤ N := by linarith
    have hNτ : 0 ≤ N * f.tiny := mul_nonneg hN0 hτ.le
    obtain ⟨q1, q2⟩ := Fl.mul_val (hf p (by simp)) l1 (Fl.noOvf_of_le_emax (by linarith))
    have hprod := abs_rnd_sub_le_u f (p.1.toReal * (lag x p.2 n).toReal)
    rw [← q2] at hprod
    have hku : 4 * ((k + 1) * f.u) ≤ 1 := by nlinarith
    have hPm : P + |p.1.toReal| * X ≤ Q := by linarith
    have hsum := (step_err (r := acc.toReal + (p.1 *. lag x p.2 n).toReal) hu f.u_le hτ hk hku rfl hPm hm0 hP rfl he ht hprod hm
      (by rw [sub_self, abs_zero]; positivity)).1
    have hsz : |acc.toReal + (p.1 *. lag x p.2 n).toReal| ≤ 2 ^ f.emax := hsum.trans (by nlinarith)
    obtain ⟨r1, r2⟩ := Fl.add_val hacc q1 (Fl.noOvf_of_le_emax hsz)
    have hrnd := abs_rnd_sub_le_u f (acc.toReal + (p.1 *. lag x p.2 n).toReal)
    rw [← r2] at hrnd
    have herr := (step_err hu f.u_le hτ hk hku rfl hPm hm0 hP rfl he ht hprod hm hrnd).2
    have ht' : |t + p.1.toReal * (lag x p.2 n).toReal| ≤ P + |p.1.toReal| * X := (abs_add_le _ _).trans (add_le_add ht hm)
    have := ih (fun q hq => hf q (by simp [hq])) (k + 1) _ _ _ (by linarith) (by linarith) (by linarith) (by linarith) r1 ht' herr
    rw [List.foldl_cons, List.length_cons]
    refine ⟨this.1, ?_⟩
    have e : ((exactTaps (p :: taps)).map fun p => p.1 * lag (fun n => (x n).toReal) p.2 n).sum =
        p.1.toReal * (lag x p.2 n).toReal + ((exactTaps taps).map fun p => p.1 * lag (fun n => (x n).toReal) p.2 n).sum := by
      rw [l3]; simp [exactTaps]
    rw [e]
    push_cast
    rw [← add_assoc t, show k + ((taps.length : ℝ) + 1) = k + 1 + taps.length by ring]
    exact this.2

variable {σ : Type} [Processor σ (Fl L)] [TappableDelayLine σ (Fl L)] {s : σ}

/-- **C155**, floating point. With `N` finite weights of total magnitude `S` and samples up to `X`, every output is finite and within
`4N (2^-p S X + 2^emin)` of the exact sum, forever. -/
theorem C155_float (hs : IsTapFir b taps s) (hf : ∀ p ∈ taps, p.1.Finite) {x y : ℕ → Fl L} (hx : ∀ n, (x n).Within X) (hN : 4 * (taps.length * f.u) ≤ 1)
    (hov : 5 * (weight (exactTaps taps) * X + taps.length * f.tiny) ≤ 2 ^ f.emax) (hy : Gathers b taps s x y) (n : ℕ) :
    (y n).Finite ∧ |(y n).toReal - fir (exactTaps taps) (fun n => (x n).toReal) n| ≤ 4 * taps.length * (f.u * (weight (exactTaps taps) * X) + f.tiny) := by
  have hX : 0 ≤ X := (abs_nonneg _).trans (hx 0).2
  have := foldl_err hX hx hN hov n taps hf 0 0 0 zero le_rfl le_rfl (by linarith) (by linarith) Fl.zero_finite (by simp) (by simp)
  rw [zero_add, zero_add] at this
  rw [(hs x y).mp hy, fir_eq_sum]
  refine ⟨this.1, this.2.trans (le_of_eq (by ring))⟩

theorem exactTaps_le {M : ℕ} (ht : ∀ p ∈ taps, p.2 ≤ M) : ∀ p ∈ exactTaps taps, p.2 ≤ M := by
  intro p hp
  obtain ⟨q, hq, rfl⟩ := List.mem_map.1 hp
  exact ht q hq

theorem fir_sub (taps : List (ℝ × ℕ)) (x y : ℕ → ℝ) (n : ℕ) : fir taps x n - fir taps y n = fir taps (fun k => x k - y k) n := by
  rw [fir_eq_sum, fir_eq_sum, fir_eq_sum]
  induction taps with
  | nil => simp
  | cons p taps ih =>
    simp only [List.map_cons, List.sum_cons]
    rw [← ih]
    have : lag (fun k => x k - y k) p.2 n = lag x p.2 n - lag y p.2 n := by
      unfold lag
      split
      · rfl
      · show (0 : ℝ) = 0 - 0
        rw [sub_zero]
    rw [this]
    ring

/-- **C155**, floating point, sinusoids: samples of a sinusoid, each off by at most `η`, come out within `S η` plus the rounding of C155_float of the sinusoid
changed by the response of the weights. -/
theorem C155_float_sine (hs : IsTapFir b taps s) (hf : ∀ p ∈ taps, p.1.Finite) {x y : ℕ → Fl L} {A ω φ η : ℝ} (hA : 0 ≤ A) (hx : SampledSine x A ω φ η)
    (hN : 4 * (taps.length * f.u) ≤ 1) (hov : 5 * (weight (exactTaps taps) * (A + η) + taps.length * f.tiny) ≤ 2 ^ f.emax) (hy : Gathers b taps s x y)
    {n : ℕ} (ht : ∀ p ∈ taps, p.2 ≤ n) :
    (y n).Finite ∧ |(y n).toReal - ‖tapResponse (exactTaps taps) ω‖ * A * Real.cos (ω * n + φ + (tapResponse (exactTaps taps) ω).arg)| ≤
      weight (exactTaps taps) * η + 4 * taps.length * (f.u * (weight (exactTaps taps) * (A + η)) + f.tiny) := by
  have hη : 0 ≤ η := (abs_nonneg _).trans (hx 0).2
  have hw : ∀ n, (x n).Within (A + η) := fun n => ⟨(hx n).1, by
    have h1 := (hx n).2
    have h2 : |A * Real.cos (ω * n + φ)| ≤ A := by
      rw [abs_mul, abs_of_nonneg hA]; exact mul_le_of_le_one_right hA (Real.abs_cos_le_one _)
    calc |(x n).toReal| = |A * Real.cos (ω * n + φ) + ((x n).toReal - A * Real.cos (ω * n + φ))| := by congr 1; ring
      _ ≤ _ := (abs_add_le _ _).trans (add_le_add h2 h1)⟩
  obtain ⟨h1, h2⟩ := C155_float hs hf hw hN hov hy n
  refine ⟨h1, ?_⟩
  have h3 := fir_sub (exactTaps taps) (fun n => (x n).toReal) (phasor (A * Complex.exp (φ * Complex.I)) ω) n
  have h4 := fir_le hη (x := fun k => (x k).toReal - phasor (A * Complex.exp (φ * Complex.I)) ω k) (fun k => by
    rw [phasor_input]; exact (hx k).2) (exactTaps taps) n
  rw [← h3, fir_phasor (exactTaps_le ht), phasor_gain] at h4
  rw [← sub_add_sub_cancel _ (fir (exactTaps taps) (fun n => (x n).toReal) n)]
  refine (abs_add_le _ _).trans ((add_le_add h2 h4).trans (le_of_eq (add_comm _ _)))

/-- **C155**, floating point, echoes: where a sample is exactly the opposite of the one `d` before, an echo of weight one cancels it exactly. -/
theorem C155_float_cancel {d : ℕ} (hs : IsTapFir b (echoTaps (one : Fl L) d) s) {x y : ℕ → Fl L} (hf : ∀ n, (x n).Finite) (hx : ∀ n, (x (n + d)).toReal = -(x n).toReal)
    (hy : Gathers b (echoTaps (one : Fl L) d) s x y) {n : ℕ} (hn : d ≤ n) : (y n).Finite ∧ (y n).toReal = 0 := by
  rw [(hs x y).mp hy]
  have e : fir (echoTaps (one : Fl L) d) x n = (zero +. one *. x n) +. one *. x (n - d) := by
    unfold fir echoTaps lag
    simp only [List.foldl_cons, List.foldl_nil, Nat.zero_le, if_true, if_pos hn, Nat.sub_zero]
  rw [e]
  obtain ⟨p1, p2⟩ := Fl.one_mul_val (hf n)
  obtain ⟨q1, q2⟩ := Fl.one_mul_val (hf (n - d))
  obtain ⟨r1, r2⟩ := Fl.add_val Fl.zero_finite p1 (by rw [Fl.zero_toReal, zero_add]; exact Fl.noOvf_toReal _)
  rw [Fl.zero_toReal, zero_add, rnd_of_isRep (Fl.isRep_toReal _)] at r2
  have h0 : (zero +. one *. x n : Fl L).toReal + (one *. x (n - d)).toReal = 0 := by
    have := hx (n - d)
    rw [Nat.sub_add_cancel hn] at this
    rw [r2, p2, q2, this]; ring
  obtain ⟨v1, v2⟩ := Fl.add_val r1 q1 (by rw [h0]; exact Fl.noOvf_of_abs_le (y := (zero : Fl L)) (by simp))
  exact ⟨v1, by rw [v2, h0, rnd_zero]⟩

end float

/-- An echo in single precision, for samples up to one: the error is at most `8 (2^-24 · 2 + 2^-149)`. -/
example [Target] {b : Build} {L : Libm binary32} (hm : Allocatable (Fl L) 9) (x : ℕ → Fl L) (hx : ∀ n, (x n).Within 1) :
    ∃ s : Delay (Fl L), Delay.new b 0 9 = .ok s ∧ ∀ y, Gathers b (echoTaps one 9) s x y → ∀ n,
      |(y n).toReal - fir (exactTaps (echoTaps (one : Fl L) 9)) (fun n => (x n).toReal) n| ≤ 4 * (2 : ℕ) * (binary32.u * (2 * 1) + binary32.tiny) := by
  have ht : ∀ p ∈ echoTaps (one : Fl L) 9, p.2 ≤ 9 := by simp [echoTaps]
  obtain ⟨s, hs, -⟩ := C116_delay_gather (b := b) (d := 0) hm _ ht x
  refine ⟨s, hs, fun y hy n => ?_⟩
  have hw : weight (exactTaps (echoTaps (one : Fl L) 9)) = 2 := by
    simp only [weight, exactTaps, echoTaps, List.map_cons, List.map_nil, List.sum_cons, List.sum_nil, Fl.one_toReal, abs_one]
    norm_num
  have := (C155_float (C155_delay hm ht hs) (by simp [echoTaps, Fl.one_finite]) hx (by
    norm_num [echoTaps, Fmt.u, binary32]) (by
    rw [hw]
    norm_num [echoTaps, Fmt.tiny, binary32]) hy n).2
  rwa [hw] at this

end Rasp
