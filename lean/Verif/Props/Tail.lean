import Verif.Spec.Tail
import Verif.Props.Impulse
import Mathlib.Analysis.SpecialFunctions.Log.Deriv
import Mathlib.Analysis.Complex.ExponentialBounds

/-!
# C140: how long the filters remember, and how long they ring
-/

namespace Rasp
open Real
variable {σ : Type} [Processor σ ℝ]

/-! ## Solutions of the equation without input -/

/-- A decaying sinusoid is determined by its first two samples. -/
theorem ringing_of_recursion {r θ : ℝ} (hr : 0 < r) (hθ : sin θ ≠ 0) {d : ℕ → ℝ} (hd : ∀ n, d (n + 2) = 2 * r * cos θ * d (n + 1) - r ^ 2 * d n) :
    ∃ A φ : ℝ, 0 ≤ A ∧ ∀ n, d n = A * r ^ n * cos (θ * n + φ) := by
  set C := d 0 with hC
  set S := (C * cos θ - d 1 / r) / sin θ with hS
  have key : ∀ n : ℕ, d n = r ^ n * (C * cos (θ * n) - S * sin (θ * n)) := by
    intro n
    suffices h : d n = r ^ n * (C * cos (θ * n) - S * sin (θ * n)) ∧
        d (n + 1) = r ^ (n + 1) * (C * cos (θ * (n + 1 : ℕ)) - S * sin (θ * (n + 1 : ℕ))) from h.1
    induction n with
    | zero =>
      refine ⟨by simp [hC], ?_⟩
      simp only [zero_add, Nat.cast_one, mul_one, pow_one]
      rw [hS, div_mul_cancel₀ _ hθ]
      field_simp
      ring
    | succ n ih =>
      refine ⟨ih.2, ?_⟩
      rw [hd n, ih.1, ih.2]
      have e1 : θ * ((n + 1 + 1 : ℕ) : ℝ) = θ * ((n + 1 : ℕ) : ℝ) + θ := by push_cast; ring
      have e0 : θ * (n : ℝ) = θ * ((n + 1 : ℕ) : ℝ) - θ := by push_cast; ring
      rw [e1, e0, cos_add, sin_add, cos_sub, sin_sub]
      ring
  refine ⟨‖(⟨C, S⟩ : ℂ)‖, Complex.arg ⟨C, S⟩, norm_nonneg _, fun n => ?_⟩
  rw [key n, cos_add]
  have h1 := Complex.norm_mul_cos_arg (⟨C, S⟩ : ℂ)
  have h2 := Complex.norm_mul_sin_arg (⟨C, S⟩ : ℂ)
  simp only at h1 h2
  calc _ = r ^ n * (‖(⟨C, S⟩ : ℂ)‖ * cos (Complex.arg ⟨C, S⟩) * cos (θ * n) - ‖(⟨C, S⟩ : ℂ)‖ * sin (Complex.arg ⟨C, S⟩) * sin (θ * n)) := by rw [h1, h2]
    _ = _ := by ring

theorem fading_of_recursion {p q : ℝ} (hpq : p ≠ q) {d : ℕ → ℝ} (hd : ∀ n, d (n + 2) = (p + q) * d (n + 1) - p * q * d n) :
    ∃ K L : ℝ, ∀ n, d n = K * p ^ n + L * q ^ n := by
  have h0 : p - q ≠ 0 := sub_ne_zero.mpr hpq
  refine ⟨(d 1 - q * d 0) / (p - q), (p * d 0 - d 1) / (p - q), fun n => ?_⟩
  suffices h : d n = (d 1 - q * d 0) / (p - q) * p ^ n + (p * d 0 - d 1) / (p - q) * q ^ n ∧
      d (n + 1) = (d 1 - q * d 0) / (p - q) * p ^ (n + 1) + (p * d 0 - d 1) / (p - q) * q ^ (n + 1) from h.1
  induction n with
  | zero => constructor <;> field_simp <;> ring
  | succ n ih =>
    refine ⟨ih.2, ?_⟩
    rw [hd n, ih.1, ih.2]
    ring

/-- After the inputs have become equal, the difference of the outputs follows the equation without input. -/
theorem difference_recursion {c0 c1 e0 e1 b0 b1 b2 a1 a2 : ℝ} {x y x' y' : ℕ → ℝ} {N : ℕ} (h : SolvesDiffFrom c0 c1 b0 b1 b2 a1 a2 x y)
    (h' : SolvesDiffFrom e0 e1 b0 b1 b2 a1 a2 x' y') (hx : ∀ n, N ≤ n → x n = x' n) (n : ℕ) :
    y (N + n + 2) - y' (N + n + 2) = -a1 * (y (N + n + 1) - y' (N + n + 1)) - a2 * (y (N + n) - y' (N + n)) := by
  rw [h, h']
  have l1 : ∀ u : ℕ → ℝ, lag u 1 (N + n + 2) = u (N + n + 1) := fun u => by simp [lag]
  have l2 : ∀ u : ℕ → ℝ, lag u 2 (N + n + 2) = u (N + n) := fun u => by simp [lag]
  simp only [l1, l2, hx (N + n + 2) (by omega), hx (N + n + 1) (by omega), hx (N + n) (by omega), show N + n + 2 ≠ 0 by omega,
    show N + n + 2 ≠ 1 by omega, if_false]
  ring

theorem tailRate_sq {β : ℝ} (h0 : 0 < β) (h1 : β < 1) : tailRate β ^ 2 = (1 - β) / (1 + β) :=
  Real.sq_sqrt (div_nonneg (by linarith) (by linarith))

theorem tailRate_pos {β : ℝ} (h0 : 0 < β) (h1 : β < 1) : 0 < tailRate β := Real.sqrt_pos.mpr (div_pos (by linarith) (by linarith))

theorem tailRate_mul {β : ℝ} (h0 : 0 < β) (h1 : β < 1) : tailRate β * (1 + β) = Real.sqrt (1 - β ^ 2) := by
  have hd : 0 < 1 + β := by linarith
  rw [eq_comm, Real.sqrt_eq_iff_mul_self_eq_of_pos (mul_pos (tailRate_pos h0 h1) hd)]
  have := tailRate_sq h0 h1
  calc _ = tailRate β ^ 2 * (1 + β) ^ 2 := by ring
    _ = _ := by rw [this]; field_simp; ring

theorem ImplementsFrom.tailRings {s t : σ} {c0 c1 e0 e1 b0 b1 b2 a1 a2 β κ : ℝ} (hs : ImplementsFrom s c0 c1 b0 b1 b2 a1 a2)
    (ht : ImplementsFrom t e0 e1 b0 b1 b2 a1 a2) (h0 : 0 < β) (h1 : β < 1) (hκ : κ ^ 2 + β ^ 2 < 1) (ha1 : a1 * (1 + β) = -2 * κ)
    (ha2 : a2 * (1 + β) = 1 - β) : TailRings s t β κ (arccos (κ / Real.sqrt (1 - β ^ 2))) := by
  have hd : 0 < 1 + β := by linarith
  have hP : 0 < 1 - β ^ 2 := by nlinarith
  have hps := Real.sq_sqrt hP.le
  have hpp := Real.sqrt_pos.2 hP
  set P := Real.sqrt (1 - β ^ 2) with hPd
  have hlt : |κ / P| < 1 := by
    rw [← sq_lt_one_iff_abs_lt_one, div_pow, hps, div_lt_one hP]
    linarith
  obtain ⟨l1, l2⟩ := abs_lt.1 hlt
  have hθ1 : 0 < arccos (κ / P) := Real.arccos_pos.2 l2
  have hθ2 : arccos (κ / P) < π := lt_of_le_of_ne (Real.arccos_le_pi _) fun e => by rw [Real.arccos_eq_pi] at e; linarith
  have hcos := Real.cos_arccos l1.le l2.le
  set θ := arccos (κ / P)
  have hsθ := (Real.sin_pos_of_pos_of_lt_pi hθ1 hθ2).ne'
  have hr := tailRate_pos h0 h1
  have hrP := tailRate_mul h0 h1
  rw [← hPd] at hrP
  have e1 : -a1 = 2 * tailRate β * cos θ := by
    have : -a1 * (1 + β) = 2 * tailRate β * cos θ * (1 + β) := by
      calc _ = 2 * κ := by linarith
        _ = 2 * cos θ * (tailRate β * (1 + β)) := by rw [hrP, hcos]; field_simp
        _ = _ := by ring
    exact mul_right_cancel₀ hd.ne' this
  have e2 : a2 = tailRate β ^ 2 := by rw [tailRate_sq h0 h1, eq_div_iff hd.ne', ha2]
  refine ⟨⟨h0, h1⟩, ⟨hθ1, hθ2, by rw [hcos, div_mul_cancel₀ _ hpp.ne']⟩, ⟨hs.total, ht.total⟩, fun b x y x' y' N hy hy' hx => ?_⟩
  rw [hs] at hy
  rw [ht] at hy'
  have hrec := difference_recursion hy hy' hx
  obtain ⟨A, φ, hA, h⟩ := ringing_of_recursion hr hsθ (d := fun n => y (N + n) - y' (N + n)) (fun n => by
    have := hrec n
    rw [e1, e2] at this
    exact this)
  refine ⟨A / tailRate β ^ N, φ - θ * N, by positivity, fun n hn => ?_⟩
  have := h (n - N)
  rw [show N + (n - N) = n by omega] at this
  rw [this, Nat.cast_sub hn, show n = (n - N) + N by omega, pow_add, Nat.add_sub_cancel]
  have e3 : θ * (((n - N + N : ℕ) : ℝ) - N) + φ = θ * ((n - N + N : ℕ) : ℝ) + (φ - θ * N) := by ring
  rw [e3]
  field_simp

theorem ImplementsFrom.tailFades {s t : σ} {c0 c1 e0 e1 b0 b1 b2 a1 a2 p q : ℝ} (hs : ImplementsFrom s c0 c1 b0 b1 b2 a1 a2)
    (ht : ImplementsFrom t e0 e1 b0 b1 b2 a1 a2) (hpq : p ≠ q) (ha1 : a1 = -(p + q)) (ha2 : a2 = p * q) : TailFades s t p q := by
  refine ⟨⟨hs.total, ht.total⟩, fun b x y x' y' N hy hy' hx => ?_⟩
  rw [hs] at hy
  rw [ht] at hy'
  obtain ⟨K, L, h⟩ := fading_of_recursion hpq (d := fun n => y (N + n) - y' (N + n)) (fun n => by
    have := difference_recursion hy hy' hx n
    rw [ha1, ha2] at this
    rw [← add_assoc, ← add_assoc, this]
    ring)
  refine ⟨K, L, fun n hn => ?_⟩
  have := h (n - N)
  rwa [show N + (n - N) = n by omega] at this

/-! ## How fast -/

/-- The rate, as a logarithm: about `-β`. -/
theorem tailRate_log {β : ℝ} (h0 : 0 < β) (h1 : β < 1) : β ≤ -log (tailRate β) ∧ -log (tailRate β) ≤ β / (1 - β ^ 2) := by
  have hβ : |β| < 1 := by rwa [abs_of_pos h0]
  have hs := Real.hasSum_log_sub_log_of_abs_lt_one hβ
  have e : -log (tailRate β) = (log (1 + β) - log (1 - β)) / 2 := by
    rw [tailRate, Real.log_sqrt (div_nonneg (by linarith) (by linarith)), Real.log_div (by linarith) (by linarith)]
    ring
  have h2 : 0 < 1 - β ^ 2 := by nlinarith
  have hb2 : β ^ 2 < 1 := by linarith
  constructor
  · have := le_hasSum hs 0 (fun k _ => by positivity)
    rw [e]
    norm_num at this
    linarith
  · have hg : HasSum (fun k : ℕ => 2 * β * (β ^ 2) ^ k) (2 * β * (1 - β ^ 2)⁻¹) := (hasSum_geometric_of_lt_one (sq_nonneg β) hb2).mul_left _
    have := hasSum_le (fun k : ℕ => ?_) hs hg
    · rw [e, div_le_iff₀ two_pos]
      calc _ ≤ _ := this
        _ = _ := by field_simp
    · have h3 : (1 : ℝ) / (2 * k + 1) ≤ 1 := by
        rw [div_le_one (by positivity)]
        have : (0 : ℝ) ≤ k := Nat.cast_nonneg k
        linarith
      have h4 : 0 ≤ β ^ (2 * k + 1) := by positivity
      calc 2 * (1 / (2 * (k : ℝ) + 1)) * β ^ (2 * k + 1) ≤ 2 * 1 * β ^ (2 * k + 1) := by gcongr
        _ = 2 * β * (β ^ 2) ^ k := by rw [← pow_mul]; ring

/-- **C140**. The time to fall to one part in `D`: between `(1 - β²) ln D / β` and `ln D / β` samples. -/
theorem C140_rate {β D : ℝ} (h0 : 0 < β) (h1 : β < 1) (hD : 1 ≤ D) (m : ℕ) :
    (log D / β ≤ m → tailRate β ^ m ≤ 1 / D) ∧ (m ≤ (1 - β ^ 2) * log D / β → 1 / D ≤ tailRate β ^ m) := by
  have hr := tailRate_pos h0 h1
  obtain ⟨l1, l2⟩ := tailRate_log h0 h1
  have hD0 : 0 < D := by linarith
  have h2 : 0 < 1 - β ^ 2 := by nlinarith
  have hm : (0 : ℝ) ≤ m := Nat.cast_nonneg m
  rw [← Real.log_le_log_iff (pow_pos hr m) (by positivity), ← Real.log_le_log_iff (by positivity) (pow_pos hr m), Real.log_pow, one_div, Real.log_inv]
  constructor
  · intro h
    rw [div_le_iff₀ h0] at h
    nlinarith
  · intro h
    rw [le_div_iff₀ h0] at h
    rw [le_div_iff₀ h2] at l2
    have : m * (-log (tailRate β) * (1 - β ^ 2)) ≤ m * β := mul_le_mul_of_nonneg_left l2 hm
    have h3 : (m * -log (tailRate β)) * (1 - β ^ 2) ≤ log D * (1 - β ^ 2) := by linarith
    have := le_of_mul_le_mul_right h3 h2
    linarith

/-- **C140**. The tail itself: two successive samples tell the level, `ln D / β` samples later it is down to one part in `D`, and not before
`(1 - β²) ln D / β` samples. -/
theorem C140_tail {s t : σ} {β κ θ : ℝ} (h : TailRings s t β κ θ) {b : Build} {x y x' y' : ℕ → ℝ} {N : ℕ} (hy : Responds b s x y)
    (hy' : Responds b t x' y') (hx : ∀ n, N ≤ n → x n = x' n) {D : ℝ} (hD : 1 ≤ D) {n : ℕ} (hn : N ≤ n) (m : ℕ) :
    (log D / β ≤ m → |y (n + m) - y' (n + m)| ≤ (|y n - y' n| + |y (n + 1) - y' (n + 1)| / tailRate β) / (sin θ * D)) ∧
    (m ≤ (1 - β ^ 2) * log D / β →
      sin θ * |y n - y' n| / D ≤ |y (n + m) - y' (n + m)| + |y (n + m + 1) - y' (n + m + 1)| / tailRate β) := by
  obtain ⟨⟨h0, h1⟩, ⟨t0, t1, -⟩, -, hh⟩ := h
  obtain ⟨A, φ, hA, hd⟩ := hh b x y x' y' N hy hy' hx
  have hr := tailRate_pos h0 h1
  have hsθ := Real.sin_pos_of_pos_of_lt_pi t0 t1
  obtain ⟨r1, r2⟩ := C140_rate h0 h1 hD m
  set r := tailRate β
  have level : ∀ k, N ≤ k → A * r ^ k * sin θ ≤ |y k - y' k| + |y (k + 1) - y' (k + 1)| / r := by
    intro k hk
    rw [hd k hk, hd (k + 1) (by omega)]
    have e : θ * ((k + 1 : ℕ) : ℝ) + φ = (θ * k + φ) + θ := by push_cast; ring
    rw [e]
    set ψ := θ * k + φ
    have hs : sin θ = sin (ψ + θ) * cos ψ - cos (ψ + θ) * sin ψ := by rw [← sin_sub]; ring_nf
    have hAr : 0 ≤ A * r ^ k := by positivity
    have e2 : |A * r ^ (k + 1) * cos (ψ + θ)| / r = A * r ^ k * |cos (ψ + θ)| := by
      rw [abs_mul, abs_of_nonneg (by positivity : 0 ≤ A * r ^ (k + 1)), pow_succ]
      field_simp
    rw [e2, abs_mul, abs_of_nonneg hAr, ← mul_add]
    refine mul_le_mul_of_nonneg_left ?_ hAr
    have b1 : sin (ψ + θ) * cos ψ ≤ |cos ψ| := by
      refine (le_abs_self _).trans ?_
      rw [abs_mul]
      exact mul_le_of_le_one_left (abs_nonneg _) (abs_sin_le_one _)
    have b2 : -(cos (ψ + θ) * sin ψ) ≤ |cos (ψ + θ)| := by
      refine (neg_le_abs _).trans ?_
      rw [abs_mul]
      exact mul_le_of_le_one_right (abs_nonneg _) (abs_sin_le_one _)
    linarith
  have upper : ∀ k, N ≤ k → |y k - y' k| ≤ A * r ^ k := by
    intro k hk
    rw [hd k hk, abs_mul, abs_of_nonneg (by positivity)]
    exact mul_le_of_le_one_right (by positivity) (abs_cos_le_one _)
  have hD0 : 0 < D := by linarith
  refine ⟨fun hm => ?_, fun hm => ?_⟩
  · refine (upper (n + m) (by omega)).trans ?_
    rw [le_div_iff₀ (by positivity)]
    have h3 := r1 hm
    rw [le_div_iff₀ hD0] at h3
    calc A * r ^ (n + m) * (sin θ * D) = A * r ^ n * sin θ * (r ^ m * D) := by rw [pow_add]; ring
      _ ≤ A * r ^ n * sin θ * 1 := mul_le_mul_of_nonneg_left h3 (by positivity)
      _ ≤ _ := by rw [mul_one]; exact level n hn
  · refine le_trans ?_ (level (n + m) (by omega))
    have h3 := r2 hm
    rw [div_le_iff₀ hD0] at h3
    rw [div_le_iff₀ hD0]
    calc sin θ * |y n - y' n| ≤ sin θ * (A * r ^ n) := mul_le_mul_of_nonneg_left (upper n hn) hsθ.le
      _ ≤ sin θ * (A * r ^ n) * (r ^ m * D) := le_mul_of_one_le_right (by positivity) h3
      _ = _ := by rw [pow_add]; ring

/-! ## Which filters -/

/-- **C140**. The basic filters with two poles that are a complex pair, in any two states. -/
theorem C140_biquads {b0 b1 b2 a1 a2 β κ : ℝ} (h0 : 0 < β) (h1 : β < 1) (hκ : κ ^ 2 + β ^ 2 < 1) (ha1 : a1 * (1 + β) = -2 * κ)
    (ha2 : a2 * (1 + β) = 1 - β) : ∃ θ,
    (∀ s t : TwoPole ℝ, TailRings (s.setCoefficients b0 a1 a2) (t.setCoefficients b0 a1 a2) β κ θ) ∧
    (∀ s t : Biquad1 ℝ, TailRings (s.setCoefficients b0 b1 b2 a1 a2) (t.setCoefficients b0 b1 b2 a1 a2) β κ θ) ∧
    (∀ s t : Biquad2 ℝ, TailRings (s.setCoefficients b0 b1 b2 a1 a2) (t.setCoefficients b0 b1 b2 a1 a2) β κ θ) :=
  ⟨_, fun _ _ => (TwoPole.implementsFrom _).tailRings (TwoPole.implementsFrom _) h0 h1 hκ ha1 ha2,
    fun _ _ => (Biquad1.implementsFrom _).tailRings (Biquad1.implementsFrom _) h0 h1 hκ ha1 ha2,
    fun _ _ => (Biquad2.implementsFrom _).tailRings (Biquad2.implementsFrom _) h0 h1 hκ ha1 ha2⟩

variable {sr f Q db S : ℝ}

/-- **C140**. Six rbj filters with `q > 1/2`: the damping is `sin w0 / (2 q)`. -/
theorem C140_rbj (h : ValidParams sr f Q) (hQ : 1 / 2 < Q) : ∃ θ,
    (∀ s : LowPass ℝ, TailRings (s.setCoefficients sr f Q) (s.setCoefficients sr f Q) (sin (angle sr f) / (2 * Q)) (cos (angle sr f)) θ) ∧
    (∀ s : HighPass ℝ, TailRings (s.setCoefficients sr f Q) (s.setCoefficients sr f Q) (sin (angle sr f) / (2 * Q)) (cos (angle sr f)) θ) ∧
    (∀ s : BandPass1 ℝ, TailRings (s.setCoefficients sr f Q) (s.setCoefficients sr f Q) (sin (angle sr f) / (2 * Q)) (cos (angle sr f)) θ) ∧
    (∀ s : BandPass2 ℝ, TailRings (s.setCoefficients sr f Q) (s.setCoefficients sr f Q) (sin (angle sr f) / (2 * Q)) (cos (angle sr f)) θ) ∧
    (∀ s : BandStop ℝ, TailRings (s.setCoefficients sr f Q) (s.setCoefficients sr f Q) (sin (angle sr f) / (2 * Q)) (cos (angle sr f)) θ) ∧
    (∀ s : AllPass ℝ, TailRings (s.setCoefficients sr f Q) (s.setCoefficients sr f Q) (sin (angle sr f) / (2 * Q)) (cos (angle sr f)) θ) := by
  rw [← h.alpha_eq]
  have hαp := h.alphaQ_pos
  have hsin := h.sin_pos
  have hαs : alphaQ sr f Q < sin (angle sr f) := by
    rw [h.alpha_eq, div_lt_iff₀ (by linarith)]
    nlinarith
  have hs1 := Real.sin_le_one (angle sr f)
  have hsc := Real.sin_sq_add_cos_sq (angle sr f)
  have h1 : alphaQ sr f Q < 1 := by linarith
  have hd : 1 + alphaQ sr f Q ≠ 0 := by linarith
  have hκ : cos (angle sr f) ^ 2 + alphaQ sr f Q ^ 2 < 1 := by nlinarith
  have e1 : -2 * cos (angle sr f) / (1 + alphaQ sr f Q) * (1 + alphaQ sr f Q) = -2 * cos (angle sr f) := div_mul_cancel₀ _ hd
  have e2 : (1 - alphaQ sr f Q) / (1 + alphaQ sr f Q) * (1 + alphaQ sr f Q) = 1 - alphaQ sr f Q := div_mul_cancel₀ _ hd
  exact ⟨_, fun s => (s.implements sr f Q).from.tailRings (s.implements sr f Q).from hαp h1 hκ e1 e2,
    fun s => (s.implements sr f Q).from.tailRings (s.implements sr f Q).from hαp h1 hκ e1 e2,
    fun s => (s.implements sr f Q).from.tailRings (s.implements sr f Q).from hαp h1 hκ e1 e2,
    fun s => (s.implements sr f Q).from.tailRings (s.implements sr f Q).from hαp h1 hκ e1 e2,
    fun s => (s.implements sr f Q).from.tailRings (s.implements sr f Q).from hαp h1 hκ e1 e2,
    fun s => (s.implements sr f Q).from.tailRings (s.implements sr f Q).from hαp h1 hκ e1 e2⟩

/-- **C140**. `Peak`: the gain counts, a boost makes the tail longer. -/
theorem C140_peak (h : ValidParams sr f Q) (hQ : 1 / 2 < Q * 10 ^ (db / 40)) : ∃ θ, ∀ s : Peak ℝ,
    TailRings (s.setCoefficients sr f db Q) (s.setCoefficients sr f db Q) (sin (angle sr f) / (2 * (Q * 10 ^ (db / 40)))) (cos (angle sr f)) θ := by
  have hA : 0 < gainA db := gainA_pos db
  have e : sin (angle sr f) / (2 * (Q * 10 ^ (db / 40))) = alphaQ sr f Q / gainA db := by
    rw [h.alpha_eq, gainA, div_div]; ring_nf
  have hαp : 0 < alphaQ sr f Q / gainA db := div_pos h.alphaQ_pos hA
  have hq := h.2.2
  have hsin := h.sin_pos
  have hαs : alphaQ sr f Q / gainA db < sin (angle sr f) := by
    rw [← e, div_lt_iff₀ (by linarith)]
    nlinarith
  have hs1 := Real.sin_le_one (angle sr f)
  have hsc := Real.sin_sq_add_cos_sq (angle sr f)
  have hd : 1 + alphaQ sr f Q / gainA db ≠ 0 := by linarith
  rw [e]
  exact ⟨_, fun s => (s.implements sr f db Q).from.tailRings (s.implements sr f db Q).from hαp (by linarith) (by nlinarith) (div_mul_cancel₀ _ hd)
    (div_mul_cancel₀ _ hd)⟩

/-- **C140**. The shelves, as long as they ring at all. -/
theorem C140_shelves (h : ValidShelf sr f S) (hS : (10 ^ (db / 40) + 1 / 10 ^ (db / 40)) * (1 / S - 1) < 2) : ∃ θ θ',
    (∀ s : LowShelf ℝ, TailRings (s.setCoefficients sr f db S) (s.setCoefficients sr f db S)
      (Real.sqrt (10 ^ (db / 40)) * sin (angle sr f) * Real.sqrt ((10 ^ (db / 40) + 1 / 10 ^ (db / 40)) * (1 / S - 1) + 2) /
        (10 ^ (db / 40) + 1 + (10 ^ (db / 40) - 1) * cos (angle sr f)))
      ((10 ^ (db / 40) - 1 + (10 ^ (db / 40) + 1) * cos (angle sr f)) / (10 ^ (db / 40) + 1 + (10 ^ (db / 40) - 1) * cos (angle sr f))) θ) ∧
    (∀ s : HighShelf ℝ, TailRings (s.setCoefficients sr f db S) (s.setCoefficients sr f db S)
      (Real.sqrt (10 ^ (db / 40)) * sin (angle sr f) * Real.sqrt ((10 ^ (db / 40) + 1 / 10 ^ (db / 40)) * (1 / S - 1) + 2) /
        (10 ^ (db / 40) + 1 - (10 ^ (db / 40) - 1) * cos (angle sr f)))
      (-(10 ^ (db / 40) - 1 - (10 ^ (db / 40) + 1) * cos (angle sr f)) / (10 ^ (db / 40) + 1 - (10 ^ (db / 40) - 1) * cos (angle sr f))) θ') := by
  have hA : 0 < gainA db := gainA_pos db
  have hsin := h.params.sin_pos
  have hsc := Real.sin_sq_add_cos_sq (angle sr f)
  obtain ⟨c1, c2⟩ := cos_lt_one_of_sin_pos hsin
  have hα := h.alphaS_pos hA
  have e : Real.sqrt (10 ^ (db / 40)) * sin (angle sr f) * Real.sqrt ((10 ^ (db / 40) + 1 / 10 ^ (db / 40)) * (1 / S - 1) + 2) =
      2 * Real.sqrt (gainA db) * alphaS sr f (gainA db) S := by
    rw [alphaS, gainA]; ring
  rw [show (10 : ℝ) ^ (db / 40) = gainA db from rfl] at hS e ⊢
  rw [e]
  have hαs : alphaS sr f (gainA db) S < sin (angle sr f) := by
    have h2 : Real.sqrt ((gainA db + 1 / gainA db) * (1 / S - 1) + 2) < 2 := by
      rw [Real.sqrt_lt' two_pos]; linarith
    rw [alphaS]
    nlinarith
  have hαs2 : alphaS sr f (gainA db) S ^ 2 < sin (angle sr f) ^ 2 := by nlinarith
  have hq := Real.sq_sqrt hA.le
  have hqp := Real.sqrt_pos.mpr hA
  set A := gainA db
  set α := alphaS sr f A S
  set c := cos (angle sr f)
  set q := Real.sqrt A
  set sn := sin (angle sr f)
  have main : ∀ U V : ℝ, 0 < U → U ^ 2 - V ^ 2 = 4 * A * sn ^ 2 → 0 < 2 * q * α / U ∧ 2 * q * α / U < 1 ∧ (V / U) ^ 2 + (2 * q * α / U) ^ 2 < 1 := by
    intro U V hU hV
    have h1 : (V / U) ^ 2 + (2 * q * α / U) ^ 2 < 1 := by
      rw [div_pow, div_pow, ← add_div, div_lt_one (by positivity)]
      have : (2 * q * α) ^ 2 = 4 * A * α ^ 2 := by rw [← hq]; ring
      rw [this]
      nlinarith
    refine ⟨by positivity, ?_, h1⟩
    have : (2 * q * α / U) ^ 2 < 1 := by linarith [sq_nonneg (V / U)]
    exact (sq_lt_one_iff₀ (by positivity)).mp this
  have hU1 : 0 < A + 1 + (A - 1) * c := by nlinarith
  have hU2 : 0 < A + 1 - (A - 1) * c := by nlinarith
  obtain ⟨l1, l2, l3⟩ := main (A + 1 + (A - 1) * c) (A - 1 + (A + 1) * c) hU1 (by linear_combination (-4 * A) * hsc)
  obtain ⟨m1, m2, m3⟩ := main (A + 1 - (A - 1) * c) (-(A - 1 - (A + 1) * c)) hU2 (by linear_combination (-4 * A) * hsc)
  have hl : 0 < A + 1 + (A - 1) * c + 2 * q * α := by positivity
  have hh : 0 < A + 1 - (A - 1) * c + 2 * q * α := by positivity
  have quot : ∀ V U E : ℝ, 0 < U → 0 < U + E → V / (U + E) * (1 + E / U) = V / U := by
    intro V U E hU hE
    field_simp
  refine ⟨_, _, fun s => (s.implements sr f db S).from.tailRings (s.implements sr f db S).from l1 l2 l3 ?_ ?_,
    fun s => (s.implements sr f db S).from.tailRings (s.implements sr f db S).from m1 m2 m3 ?_ ?_⟩
  · exact (quot _ _ _ hU1 hl).trans (by ring)
  · exact (quot _ _ _ hU1 hl).trans (by field_simp; rfl)
  · exact (quot _ _ _ hU2 hh).trans (by ring)
  · exact (quot _ _ _ hU2 hh).trans (by field_simp; rfl)

/-- **C140**. With `q < 1/2` they do not ring: the tail is a sum of two exponentials. -/
theorem C140_fades (h : ValidParams sr f Q) (hQ : Q < 1 / 2) : ∃ p q : ℝ, p ≠ q ∧ |p| < 1 ∧ |q| < 1 ∧
    p = (cos (angle sr f) + Real.sqrt ((sin (angle sr f) / (2 * Q)) ^ 2 - sin (angle sr f) ^ 2)) / (1 + sin (angle sr f) / (2 * Q)) ∧
    q = (cos (angle sr f) - Real.sqrt ((sin (angle sr f) / (2 * Q)) ^ 2 - sin (angle sr f) ^ 2)) / (1 + sin (angle sr f) / (2 * Q)) ∧
    (∀ s : LowPass ℝ, TailFades (s.setCoefficients sr f Q) (s.setCoefficients sr f Q) p q) ∧
    (∀ s : HighPass ℝ, TailFades (s.setCoefficients sr f Q) (s.setCoefficients sr f Q) p q) ∧
    (∀ s : BandPass1 ℝ, TailFades (s.setCoefficients sr f Q) (s.setCoefficients sr f Q) p q) ∧
    (∀ s : BandPass2 ℝ, TailFades (s.setCoefficients sr f Q) (s.setCoefficients sr f Q) p q) ∧
    (∀ s : BandStop ℝ, TailFades (s.setCoefficients sr f Q) (s.setCoefficients sr f Q) p q) ∧
    (∀ s : AllPass ℝ, TailFades (s.setCoefficients sr f Q) (s.setCoefficients sr f Q) p q) := by
  rw [← h.alpha_eq]
  have hsin := h.sin_pos
  have hαp := h.alphaQ_pos
  have hq := h.2.2
  have hαs : sin (angle sr f) < alphaQ sr f Q := by
    rw [h.alpha_eq, lt_div_iff₀ (by linarith)]
    nlinarith
  set α := alphaQ sr f Q with hα
  set w := angle sr f with hw
  have hsc := Real.sin_sq_add_cos_sq w
  obtain ⟨c1, c2⟩ := cos_lt_one_of_sin_pos hsin
  have hd : 0 < 1 + α := by linarith
  have hD : 0 < α ^ 2 - sin w ^ 2 := by nlinarith
  have hDs := Real.sq_sqrt hD.le
  have hDp := Real.sqrt_pos.2 hD
  have hDl : Real.sqrt (α ^ 2 - sin w ^ 2) < α := by
    have : Real.sqrt (α ^ 2 - sin w ^ 2) < Real.sqrt (α ^ 2) := Real.sqrt_lt_sqrt hD.le (by nlinarith)
    rwa [Real.sqrt_sq hαp.le] at this
  set D := Real.sqrt (α ^ 2 - sin w ^ 2) with hDd
  have e1 : -2 * cos w / (1 + α) = -((cos w + D) / (1 + α) + (cos w - D) / (1 + α)) := by field_simp; ring
  have e2 : (1 - α) / (1 + α) = (cos w + D) / (1 + α) * ((cos w - D) / (1 + α)) := by
    field_simp
    linear_combination hDs - hsc
  have hne : (cos w + D) / (1 + α) ≠ (cos w - D) / (1 + α) := by
    intro e
    rw [div_left_inj' hd.ne'] at e
    linarith
  refine ⟨(cos w + D) / (1 + α), (cos w - D) / (1 + α), hne, ?_, ?_, rfl, rfl,
    fun s => (s.implements sr f Q).from.tailFades (s.implements sr f Q).from hne e1 e2,
    fun s => (s.implements sr f Q).from.tailFades (s.implements sr f Q).from hne e1 e2,
    fun s => (s.implements sr f Q).from.tailFades (s.implements sr f Q).from hne e1 e2,
    fun s => (s.implements sr f Q).from.tailFades (s.implements sr f Q).from hne e1 e2,
    fun s => (s.implements sr f Q).from.tailFades (s.implements sr f Q).from hne e1 e2,
    fun s => (s.implements sr f Q).from.tailFades (s.implements sr f Q).from hne e1 e2⟩
  · rw [abs_lt, lt_div_iff₀ hd, div_lt_iff₀ hd]
    constructor <;> linarith
  · rw [abs_lt, lt_div_iff₀ hd, div_lt_iff₀ hd]
    constructor <;> linarith

/-- The hypotheses are met by ordinary parameters: a band of `q = 10` a quarter of the way up, a peak of 20 dB, shelves of slope 1; and the two inputs may
differ, for instance an impulse and silence, from sample 1 on the same. -/
example : ValidParams 44100 11025 10 ∧ (1 : ℝ) / 2 < 10 ∧ (1 : ℝ) / 2 < 10 * 10 ^ ((20 : ℝ) / 40) ∧ ValidShelf 44100 11025 1 ∧
    (∀ db : ℝ, ((10 : ℝ) ^ (db / 40) + 1 / 10 ^ (db / 40)) * (1 / 1 - 1) < 2) ∧ ValidParams 44100 11025 (1 / 4) ∧
    (∀ n, 1 ≤ n → (if n = 0 then (1 : ℝ) else 0) = (fun _ => 0) n) := by
  refine ⟨⟨by norm_num, by norm_num, by norm_num⟩, by norm_num, ?_, ⟨by norm_num, by norm_num, by norm_num, by norm_num⟩, fun db => by norm_num,
    ⟨by norm_num, by norm_num, by norm_num⟩, fun n hn => if_neg (by omega)⟩
  have : (1 : ℝ) ≤ 10 ^ ((20 : ℝ) / 40) := Real.one_le_rpow (by norm_num) (by norm_num)
  linarith

/-- The damping at that band is 1/20: 60 dB take between 137 and 139 samples. -/
example : sin (angle 44100 11025) / (2 * 10) = 1 / 20 ∧ log 1000 / (1 / 20) ≤ (139 : ℕ) ∧ ((137 : ℕ) : ℝ) ≤ (1 - (1 / 20) ^ 2) * log 1000 / (1 / 20) := by
  have h1 : angle 44100 11025 = π / 2 := by unfold angle; ring
  have h2 : log 1000 = 10 * log 2 - log 1.024 := by
    rw [show (1000 : ℝ) = 2 ^ 10 / 1.024 by norm_num, Real.log_div (by norm_num) (by norm_num), Real.log_pow]; norm_num
  have h3 : 0 ≤ log 1.024 := Real.log_nonneg (by norm_num)
  have h4 : log 1.024 ≤ 1.024 - 1 := Real.log_le_sub_one_of_pos (by norm_num)
  have h5 := Real.log_two_gt_d9
  have h6 := Real.log_two_lt_d9
  refine ⟨by rw [h1, sin_pi_div_two]; norm_num, ?_, ?_⟩
  · push_cast
    linarith
  · push_cast
    linarith

end Rasp
