import Verif.Spec.Impulse
import Verif.Props.Rbj
import Verif.Props.Filters

/-!
# C94: closed forms of impulse responses (exact arithmetic)
-/

namespace Rasp
open Real (cos sin pi)

section equation
variable {b0 b1 b2 a1 a2 p q r θ : ℝ}

theorem lag_unitImpulse (k n : ℕ) : lag unitImpulse k n = if n = k then 1 else 0 := by
  unfold lag unitImpulse
  by_cases h : n = k
  · subst h; simp
  · rw [if_neg h]
    split_ifs <;> first | rfl | omega

/-- `e` answers an impulse with `1/(1 + a1 z⁻¹ + a2 z⁻²)`. -/
theorem solves_of_rec {e : ℕ → ℝ} (h0 : e 0 = 1) (h1 : e 1 = -a1) (h : ∀ n, e (n + 2) = -a1 * e (n + 1) - a2 * e n) :
    SolvesDiff 1 0 0 a1 a2 unitImpulse e := by
  intro n
  rw [lag_unitImpulse, lag_unitImpulse]
  rcases n with - | - | n
  · simp [h0, lag, unitImpulse]
  · simp [h1, h0, lag, unitImpulse]
  · rw [h n]
    simp [lag, unitImpulse]

/-- Any numerator. -/
theorem SolvesDiff.numerator {e : ℕ → ℝ} (h : SolvesDiff 1 0 0 a1 a2 unitImpulse e) :
    SolvesDiff b0 b1 b2 a1 a2 unitImpulse (fun n => b0 * e n + b1 * lag e 1 n + b2 * lag e 2 n) := by
  intro n
  rcases n with - | - | n
  · have e0 := h 0
    simp [lag, unitImpulse] at e0 ⊢
    rw [e0]; ring
  · have e0 := h 0
    have e1 := h 1
    simp [lag, unitImpulse] at e0 e1 ⊢
    rw [e1, e0]; ring
  · have e0 := h (n + 2)
    have e1 := h (n + 1)
    have e2 := h n
    rcases n with - | - | n
    · simp [lag, unitImpulse] at e0 e1 e2 ⊢
      rw [e0, e1, e2]; ring
    · simp [lag, unitImpulse] at e0 e1 e2 ⊢
      linear_combination b0 * e0 + b1 * e1 + b2 * e2
    · simp [lag, unitImpulse] at e0 e1 e2 ⊢
      linear_combination b0 * e0 + b1 * e1 + b2 * e2

theorem impulse_real (hpq : p ≠ q) (h1 : a1 = -(p + q)) (h2 : a2 = p * q) :
    SolvesDiff 1 0 0 a1 a2 unitImpulse (fun n => (p ^ (n + 1) - q ^ (n + 1)) / (p - q)) := by
  subst h1 h2
  have h : p - q ≠ 0 := sub_ne_zero.2 hpq
  refine solves_of_rec ?_ ?_ fun n => ?_
  · simp [h]
  · field_simp; ring
  · field_simp; ring

theorem impulse_double (h1 : a1 = -(2 * p)) (h2 : a2 = p ^ 2) : SolvesDiff 1 0 0 a1 a2 unitImpulse (fun n => (n + 1) * p ^ n) := by
  subst h1 h2
  refine solves_of_rec ?_ ?_ fun n => ?_
  · simp
  · norm_num
  · push_cast; ring

theorem impulse_complex (hs : sin θ ≠ 0) (h1 : a1 = -(2 * r * cos θ)) (h2 : a2 = r ^ 2) :
    SolvesDiff 1 0 0 a1 a2 unitImpulse (fun n => r ^ n * sin ((n + 1) * θ) / sin θ) := by
  subst h1 h2
  refine solves_of_rec ?_ ?_ fun n => ?_
  · simp [hs]
  · have : sin ((((1 : ℕ) : ℝ) + 1) * θ) = 2 * sin θ * cos θ := by rw [← Real.sin_two_mul]; norm_num
    rw [this]; field_simp
  · have e1 : sin ((((n + 2 : ℕ) : ℝ) + 1) * θ) = sin ((n + 2) * θ) * cos θ + cos ((n + 2) * θ) * sin θ := by
      rw [← Real.sin_add]; push_cast; ring_nf
    have e2 : sin ((n + 1 : ℝ) * θ) = sin ((n + 2) * θ) * cos θ - cos ((n + 2) * θ) * sin θ := by
      rw [← Real.sin_sub]; ring_nf
    have e3 : sin ((((n + 1 : ℕ) : ℝ) + 1) * θ) = sin ((n + 2) * θ) := by push_cast; ring_nf
    rw [e1, e2, e3]
    field_simp
    ring

/-- Every pair of feedback coefficients is of one of the three kinds. -/
theorem feedback_kinds (a1 a2 : ℝ) :
    (∃ p q : ℝ, p ≠ q ∧ a1 = -(p + q) ∧ a2 = p * q) ∨ (∃ p : ℝ, a1 = -(2 * p) ∧ a2 = p ^ 2) ∨
    (∃ r θ : ℝ, 0 < r ∧ 0 < θ ∧ θ < pi ∧ a1 = -(2 * r * cos θ) ∧ a2 = r ^ 2) := by
  rcases lt_trichotomy (4 * a2) (a1 ^ 2) with h | h | h
  · left
    have hd : 0 < a1 ^ 2 - 4 * a2 := by linarith
    refine ⟨(-a1 + Real.sqrt (a1 ^ 2 - 4 * a2)) / 2, (-a1 - Real.sqrt (a1 ^ 2 - 4 * a2)) / 2, ?_, by ring, ?_⟩
    · have := Real.sqrt_pos.2 hd
      intro e; linarith
    · have := Real.sq_sqrt hd.le
      linear_combination (1 / 4) * this
  · exact Or.inr (Or.inl ⟨-a1 / 2, by ring, by linarith⟩)
  · right; right
    have ha2 : 0 < a2 := by nlinarith [sq_nonneg a1]
    have hr := Real.sqrt_pos.2 ha2
    have hsq := Real.sq_sqrt ha2.le
    have hlt : |-(a1 / (2 * Real.sqrt a2))| < 1 := by
      rw [← sq_lt_one_iff_abs_lt_one, neg_sq, div_pow, mul_pow, hsq, div_lt_one (by positivity)]
      linarith
    obtain ⟨l1, l2⟩ := abs_lt.1 hlt
    refine ⟨Real.sqrt a2, Real.arccos (-(a1 / (2 * Real.sqrt a2))), hr, Real.arccos_pos.2 l2, ?_, ?_, hsq.symm⟩
    · exact lt_of_le_of_ne (Real.arccos_le_pi _) fun e => by rw [Real.arccos_eq_pi] at e; linarith
    · rw [Real.cos_arccos l1.le l2.le]; field_simp

/-- A weighted sum of cosine and sine is one shifted cosine. -/
theorem exists_amplitude (u v : ℝ) : ∃ K φ : ℝ, ∀ t : ℝ, u * cos t + v * sin t = K * cos (t + φ) := by
  refine ⟨‖(⟨u, -v⟩ : ℂ)‖, (⟨u, -v⟩ : ℂ).arg, fun t => ?_⟩
  have h1 : ‖(⟨u, -v⟩ : ℂ)‖ * cos (⟨u, -v⟩ : ℂ).arg = u := Complex.norm_mul_cos_arg _
  have h2 : ‖(⟨u, -v⟩ : ℂ)‖ * sin (⟨u, -v⟩ : ℂ).arg = -v := Complex.norm_mul_sin_arg _
  rw [Real.cos_add]
  linear_combination (-cos t) * h1 + sin t * h2

end equation

/-! ## Basic filters -/

/-- **C94**. One pole: a geometric sequence. -/
theorem C94_onePole (b : Build) (b0 a1 : ℝ) (h : ℕ → ℝ) :
    Responds b (OnePole.new.setCoefficients b0 a1) unitImpulse h ↔ h = fun n => b0 * (-a1) ^ n := by
  have hs : SolvesDiff b0 0 0 a1 0 unitImpulse (fun n => b0 * (-a1) ^ n) := by
    intro n
    rcases n with - | n
    · simp [lag, unitImpulse]
    · simp [lag, unitImpulse, pow_succ]; ring
  rw [(C30_new_solve_difference_equation b0 0 0 a1 0).1]
  exact ⟨fun h' => h'.unique hs, fun e => e ▸ hs⟩

/-- **C94**. Zeros: the coefficients, then silence. -/
theorem C94_zeros (b : Build) (b0 b1 b2 : ℝ) (h : ℕ → ℝ) :
    (Responds b (OneZero.new.setCoefficients b0 b1) unitImpulse h ↔ h = fun n => [b0, b1].getD n 0) ∧
    (Responds b (TwoZero.new.setCoefficients b0 b1 b2) unitImpulse h ↔ h = fun n => [b0, b1, b2].getD n 0) := by
  have h1 : SolvesDiff b0 b1 0 0 0 unitImpulse (fun n => [b0, b1].getD n 0) := by
    intro n
    rcases n with - | - | n <;> simp [unitImpulse]
  have h2 : SolvesDiff b0 b1 b2 0 0 unitImpulse (fun n => [b0, b1, b2].getD n 0) := by
    intro n
    rcases n with - | - | - | n <;> simp [unitImpulse]
  rw [(C30_new_solve_difference_equation b0 b1 0 0 0).2.1, (C30_new_solve_difference_equation b0 b1 b2 0 0).2.2.2.1]
  exact ⟨⟨fun h' => h'.unique h1, fun e => e ▸ h1⟩, ⟨fun h' => h'.unique h2, fun e => e ▸ h2⟩⟩

theorem impulse_scale {a1 a2 b0 : ℝ} {e : ℕ → ℝ} (h : SolvesDiff 1 0 0 a1 a2 unitImpulse e) :
    SolvesDiff b0 0 0 a1 a2 unitImpulse (fun n => b0 * e n) := by
  have := h.numerator (b0 := b0) (b1 := 0) (b2 := 0)
  simpa using this

/-- **C94**. Two poles, all cases: two different real poles, a double pole, a complex pair `r e^(± i θ)`. -/
theorem C94_twoPole (b : Build) (b0 : ℝ) (h : ℕ → ℝ) :
    (∀ p q : ℝ, p ≠ q → (Responds b (TwoPole.new.setCoefficients b0 (-(p + q)) (p * q)) unitImpulse h ↔
      h = fun n => b0 * ((p ^ (n + 1) - q ^ (n + 1)) / (p - q)))) ∧
    (∀ p : ℝ, Responds b (TwoPole.new.setCoefficients b0 (-(2 * p)) (p ^ 2)) unitImpulse h ↔
      h = fun n : ℕ => b0 * ((n + 1) * p ^ n)) ∧
    (∀ r θ : ℝ, sin θ ≠ 0 → (Responds b (TwoPole.new.setCoefficients b0 (-(2 * r * cos θ)) (r ^ 2)) unitImpulse h ↔
      h = fun n : ℕ => b0 * (r ^ n * sin ((n + 1) * θ) / sin θ))) ∧
    ∀ a1 a2 : ℝ, (∃ p q : ℝ, p ≠ q ∧ a1 = -(p + q) ∧ a2 = p * q) ∨ (∃ p : ℝ, a1 = -(2 * p) ∧ a2 = p ^ 2) ∨
      (∃ r θ : ℝ, sin θ ≠ 0 ∧ a1 = -(2 * r * cos θ) ∧ a2 = r ^ 2) := by
  have key : ∀ {a1 a2 : ℝ} {e : ℕ → ℝ}, SolvesDiff 1 0 0 a1 a2 unitImpulse e →
      (Responds b (TwoPole.new.setCoefficients b0 a1 a2) unitImpulse h ↔ h = fun n => b0 * e n) := by
    intro a1 a2 e he
    rw [(C30_new_solve_difference_equation b0 0 0 a1 a2).2.2.1]
    exact ⟨fun h' => h'.unique (impulse_scale he), fun e' => e' ▸ impulse_scale he⟩
  refine ⟨fun p q hpq => key (impulse_real hpq rfl rfl), fun p => key (impulse_double rfl rfl), fun r θ hs => key (impulse_complex hs rfl rfl),
    fun a1 a2 => ?_⟩
  rcases feedback_kinds a1 a2 with h | h | ⟨r, θ, -, h1, h2, h3⟩
  · exact Or.inl h
  · exact Or.inr (Or.inl h)
  · exact Or.inr (Or.inr ⟨r, θ, (Real.sin_pos_of_pos_of_lt_pi h1 h2).ne', h3⟩)

/-- **C94**. Biquads: the answer of the two poles alone, weighted by the zeros. -/
theorem C94_biquads (b : Build) (b0 b1 b2 a1 a2 : ℝ) {e : ℕ → ℝ} (he : Responds b (TwoPole.new.setCoefficients 1 a1 a2) unitImpulse e)
    (h : ℕ → ℝ) :
    (Responds b (Biquad1.new.setCoefficients b0 b1 b2 a1 a2) unitImpulse h ↔ h = fun n => b0 * e n + b1 * lag e 1 n + b2 * lag e 2 n) ∧
    (Responds b (Biquad2.new.setCoefficients b0 b1 b2 a1 a2) unitImpulse h ↔ h = fun n => b0 * e n + b1 * lag e 1 n + b2 * lag e 2 n) := by
  rw [(C30_new_solve_difference_equation 1 0 0 a1 a2).2.2.1] at he
  have hs := he.numerator (b0 := b0) (b1 := b1) (b2 := b2)
  obtain ⟨-, -, -, -, h5, h6⟩ := C30_new_solve_difference_equation b0 b1 b2 a1 a2
  rw [h5, h6]
  exact ⟨⟨fun h' => h'.unique hs, fun e => e ▸ hs⟩, ⟨fun h' => h'.unique hs, fun e => e ▸ hs⟩⟩

/-! ## rbj filters -/

section rbj
variable {σ : Type} [Processor σ ℝ] {s : σ} {b0 b1 b2 a1 a2 p q r θ : ℝ}

theorem Implements.fades (hi : Implements s b0 b1 b2 a1 a2) (hpq : p ≠ q) (h1 : a1 = -(p + q)) (h2 : a2 = p * q) (b : Build) : Fades b s p q := by
  have hs := (impulse_real hpq h1 h2).numerator (b0 := b0) (b1 := b1) (b2 := b2)
  have h : p - q ≠ 0 := sub_ne_zero.2 hpq
  obtain ⟨y, hy⟩ := hi.from.total b unitImpulse
  refine ⟨y, hy, (b0 * p ^ 2 + b1 * p + b2) / (p - q), -((b0 * q ^ 2 + b1 * q + b2) / (p - q)), fun n => ?_⟩
  rw [((hi b _ _).1 hy).unique hs]
  rcases n with - | n
  · simp [lag]; field_simp; ring
  · simp [lag]; field_simp; ring

theorem Implements.fadesCritically (hi : Implements s b0 b1 b2 a1 a2) (hp : p ≠ 0) (h1 : a1 = -(2 * p)) (h2 : a2 = p ^ 2) (b : Build) :
    FadesCritically b s p := by
  have hs := (impulse_double h1 h2).numerator (b0 := b0) (b1 := b1) (b2 := b2)
  obtain ⟨y, hy⟩ := hi.from.total b unitImpulse
  refine ⟨y, hy, b0 * 2 * p + b1, b0 * p + b1 + b2 / p, fun n => ?_⟩
  rw [((hi b _ _).1 hy).unique hs]
  rcases n with - | n
  · simp [lag]; ring
  · simp [lag]; field_simp; ring

theorem Implements.short (hi : Implements s b0 b1 b2 a1 a2) (h1 : a1 = 0) (h2 : a2 = 0) (b : Build) :
    Responds b s unitImpulse fun n => [b0, b1, b2].getD n 0 := by
  subst h1 h2
  rw [hi, ← (C30_new_solve_difference_equation b0 b1 b2 0 0).2.2.2.1]
  exact ((C94_zeros b b0 b1 b2 _).2).2 rfl

theorem Implements.rings (hi : Implements s b0 b1 b2 a1 a2) (hr : r ≠ 0) (hs : sin θ ≠ 0) (h1 : a1 = -(2 * r * cos θ)) (h2 : a2 = r ^ 2)
    (hne : b1 ≠ b0 * a1 ∨ b2 ≠ b0 * a2) (b : Build) : RingsAt b s r θ := by
  have hsol := (impulse_complex hs h1 h2).numerator (b0 := b0) (b1 := b1) (b2 := b2)
  obtain ⟨K, φ, hK⟩ := exists_amplitude ((b0 * r * sin (2 * θ) + b1 * sin θ) / sin θ) ((b0 * r * cos (2 * θ) + b1 * cos θ + b2 / r) / sin θ)
  obtain ⟨y, hy⟩ := hi.from.total b unitImpulse
  have key : ∀ n : ℕ, y (n + 1) = K * r ^ n * cos (θ * n + φ) := by
    intro n
    rw [((hi b _ _).1 hy).unique hsol]
    have := hK (θ * n)
    rw [mul_right_comm, ← this]
    have e1 : sin (θ * n + 2 * θ) = sin (θ * n) * cos (2 * θ) + cos (θ * n) * sin (2 * θ) := Real.sin_add _ _
    have e2 : sin (θ * n + θ) = sin (θ * n) * cos θ + cos (θ * n) * sin θ := Real.sin_add _ _
    have g1 : sin ((((n + 1 : ℕ) : ℝ) + 1) * θ) = sin (θ * n + 2 * θ) := by push_cast; ring_nf
    have g2 : sin (((n : ℝ) + 1) * θ) = sin (θ * n + θ) := by ring_nf
    have g3 : lag (fun n : ℕ => r ^ n * sin ((n + 1) * θ) / sin θ) 2 (n + 1) = r ^ n / r * sin (θ * n) / sin θ := by
      rcases n with - | n
      · simp [lag]
      · simp only [lag, show 2 ≤ n + 1 + 1 by omega, if_true, show n + 1 + 1 - 2 = n by omega]
        rw [pow_succ, mul_div_cancel_right₀ _ hr]
        push_cast
        ring_nf
    simp only [g3, lag_one_succ]
    rw [g1, g2, e1, e2]
    field_simp
    ring
  refine ⟨y, hy, K, φ, fun hK0 => ?_, key⟩
  have hz : ∀ n, y (n + 1) = 0 := fun n => by rw [key n, hK0]; ring
  have q0 := (hi b _ _).1 hy 0
  have q1 := (hi b _ _).1 hy 1
  have q2 := (hi b _ _).1 hy 2
  have z1 := hz 0
  have z2 := hz 1
  simp [lag, unitImpulse] at q0 q1 q2 z1 z2
  rw [z1, q0] at q1
  rw [z2, z1, q0] at q2
  rcases hne with h | h
  · exact h (by linarith)
  · exact h (by linarith)

variable {sr f Q : ℝ}

theorem ValidParams.alpha_eq (_ : ValidParams sr f Q) : alphaQ sr f Q = sin (angle sr f) / (2 * Q) := rfl

/-- **C94**. With `q > 1/2` six rbj filters answer an impulse with a decaying sinusoid; decay and frequency in terms of the parameters. -/
theorem C94_rbj_rings (h : ValidParams sr f Q) (hQ : 1 / 2 < Q) (b : Build) : ∃ r θ : ℝ, 0 < r ∧ r < 1 ∧
    r ^ 2 = (1 - sin (angle sr f) / (2 * Q)) / (1 + sin (angle sr f) / (2 * Q)) ∧ 0 < θ ∧ θ < pi ∧
    cos θ * Real.sqrt (1 - (sin (angle sr f) / (2 * Q)) ^ 2) = cos (angle sr f) ∧
    (∀ s : LowPass ℝ, RingsAt b (s.setCoefficients sr f Q) r θ) ∧ (∀ s : HighPass ℝ, RingsAt b (s.setCoefficients sr f Q) r θ) ∧
    (∀ s : BandPass1 ℝ, RingsAt b (s.setCoefficients sr f Q) r θ) ∧ (∀ s : BandPass2 ℝ, RingsAt b (s.setCoefficients sr f Q) r θ) ∧
    (∀ s : BandStop ℝ, RingsAt b (s.setCoefficients sr f Q) r θ) ∧ (∀ s : AllPass ℝ, RingsAt b (s.setCoefficients sr f Q) r θ) := by
  rw [← h.alpha_eq]
  have hsin := h.sin_pos
  have hαp := h.alphaQ_pos
  have hαs : alphaQ sr f Q < sin (angle sr f) := by
    rw [h.alpha_eq, div_lt_iff₀ (by linarith)]
    nlinarith
  have hq := h.2.2
  set α := alphaQ sr f Q with hα
  set w := angle sr f with hw
  have hs1 := Real.sin_le_one w
  have hsc := Real.sin_sq_add_cos_sq w
  obtain ⟨c1, c2⟩ := cos_lt_one_of_sin_pos hsin
  have h1α : 0 < 1 - α := by linarith
  have hd : 0 < 1 + α := by linarith
  have hR : 0 < (1 - α) / (1 + α) := by positivity
  have hP : 0 < 1 - α ^ 2 := by nlinarith
  have hrs := Real.sq_sqrt hR.le
  have hrp := Real.sqrt_pos.2 hR
  set r := Real.sqrt ((1 - α) / (1 + α)) with hr
  have hps := Real.sq_sqrt hP.le
  have hpp := Real.sqrt_pos.2 hP
  set P := Real.sqrt (1 - α ^ 2) with hPd
  have hlt : |cos w / P| < 1 := by
    rw [← sq_lt_one_iff_abs_lt_one, div_pow, hps, div_lt_one hP]
    nlinarith
  obtain ⟨l1, l2⟩ := abs_lt.1 hlt
  have hθ1 : 0 < Real.arccos (cos w / P) := Real.arccos_pos.2 l2
  have hθ2 : Real.arccos (cos w / P) < pi :=
    lt_of_le_of_ne (Real.arccos_le_pi _) fun e => by rw [Real.arccos_eq_pi] at e; linarith
  have hcos := Real.cos_arccos l1.le l2.le
  set θ := Real.arccos (cos w / P) with hθ
  have hsθ := (Real.sin_pos_of_pos_of_lt_pi hθ1 hθ2).ne'
  have hrP : r * (1 + α) = P := by
    have : (r * (1 + α)) ^ 2 = P ^ 2 := by rw [mul_pow, hrs, hps]; field_simp; ring
    exact (pow_left_inj₀ (by positivity) hpp.le two_ne_zero).1 this
  have e1 : -2 * cos w / (1 + α) = -(2 * r * cos θ) := by
    rw [hcos, ← hrP]
    field_simp
  have e2 : (1 - α) / (1 + α) = r ^ 2 := hrs.symm
  have hr1 : r < 1 := by
    have : r ^ 2 < 1 := by rw [hrs, div_lt_one hd]; linarith
    nlinarith
  have ha2 : (1 - α) / (1 + α) ≠ 1 := by rw [Ne, div_eq_one_iff_eq hd.ne']; intro e; linarith
  have ha2' : (1 - α) / (1 + α) ≠ -1 := by rw [Ne, div_eq_iff hd.ne']; intro e; linarith
  refine ⟨r, θ, hrp, hr1, hrs, hθ1, hθ2, by rw [hcos, div_mul_cancel₀ _ hpp.ne'], fun s => ?_, fun s => ?_, fun s => ?_, fun s => ?_, fun s => ?_,
    fun s => ?_⟩
  · refine (s.implements sr f Q).rings hrp.ne' hsθ e1 e2 (Or.inr fun e => ha2 ?_) b
    have : (1 - cos w) / 2 / (1 + α) ≠ 0 := div_ne_zero (by linarith) hd.ne'
    exact mul_left_cancel₀ this (by rw [mul_one]; exact e.symm)
  · refine (s.implements sr f Q).rings hrp.ne' hsθ e1 e2 (Or.inr fun e => ha2 ?_) b
    have : (1 + cos w) / 2 / (1 + α) ≠ 0 := div_ne_zero (by linarith) hd.ne'
    exact mul_left_cancel₀ this (by rw [mul_one]; exact e.symm)
  · refine (s.implements sr f Q).rings hrp.ne' hsθ e1 e2 (Or.inr fun e => ha2' ?_) b
    have : Q * α / (1 + α) ≠ 0 := by positivity
    exact mul_left_cancel₀ this (by rw [← hα] at e; rw [← e]; ring)
  · refine (s.implements sr f Q).rings hrp.ne' hsθ e1 e2 (Or.inr fun e => ha2' ?_) b
    have : α / (1 + α) ≠ 0 := by positivity
    exact mul_left_cancel₀ this (by rw [← hα] at e; rw [← e]; ring)
  · refine (s.implements sr f Q).rings hrp.ne' hsθ e1 e2 (Or.inr fun e => ha2 ?_) b
    have : 1 / (1 + α) ≠ 0 := by positivity
    exact mul_left_cancel₀ this (by rw [mul_one]; exact e.symm)
  · refine (s.implements sr f Q).rings hrp.ne' hsθ e1 e2 (Or.inr fun e => ?_) b
    rw [← hα, div_self hd.ne', e2] at e
    have : r ^ 2 < 1 := by nlinarith
    nlinarith [sq_nonneg r]

/-- **C94**. With `q < 1/2` they do not ring: two different real poles within the unit circle. -/
theorem C94_rbj_fades (h : ValidParams sr f Q) (hQ : Q < 1 / 2) (b : Build) : ∃ p q : ℝ, p ≠ q ∧ |p| < 1 ∧ |q| < 1 ∧
    (1 + sin (angle sr f) / (2 * Q)) * (p + q) = 2 * cos (angle sr f) ∧
    (1 + sin (angle sr f) / (2 * Q)) * (p * q) = 1 - sin (angle sr f) / (2 * Q) ∧
    (∀ s : LowPass ℝ, Fades b (s.setCoefficients sr f Q) p q) ∧ (∀ s : HighPass ℝ, Fades b (s.setCoefficients sr f Q) p q) ∧
    (∀ s : BandPass1 ℝ, Fades b (s.setCoefficients sr f Q) p q) ∧ (∀ s : BandPass2 ℝ, Fades b (s.setCoefficients sr f Q) p q) ∧
    (∀ s : BandStop ℝ, Fades b (s.setCoefficients sr f Q) p q) ∧ (∀ s : AllPass ℝ, Fades b (s.setCoefficients sr f Q) p q) := by
  rw [← h.alpha_eq]
  have hsin := h.sin_pos
  have hαp := h.alphaQ_pos
  have hq := h.2.2
  have hαs : sin (angle sr f) < alphaQ sr f Q := by
    rw [h.alpha_eq, lt_div_iff₀ (by linarith)]
    nlinarith
  set α := alphaQ sr f Q with hα
  set w := angle sr f with hw
  have hsc := Real.sin_sq_add_cos_sq w
  obtain ⟨c1, c2⟩ := cos_lt_one_of_sin_pos hsin
  have hd : 0 < 1 + α := by linarith
  have hD : 0 < α ^ 2 - sin w ^ 2 := by nlinarith
  have hDs := Real.sq_sqrt hD.le
  have hDp := Real.sqrt_pos.2 hD
  have hDl : Real.sqrt (α ^ 2 - sin w ^ 2) < α := by
    have : Real.sqrt (α ^ 2 - sin w ^ 2) < Real.sqrt (α ^ 2) := Real.sqrt_lt_sqrt hD.le (by nlinarith)
    rwa [Real.sqrt_sq hαp.le] at this
  set D := Real.sqrt (α ^ 2 - sin w ^ 2) with hDd
  have e1 : -2 * cos w / (1 + α) = -((cos w + D) / (1 + α) + (cos w - D) / (1 + α)) := by field_simp; ring
  have e2 : (1 - α) / (1 + α) = (cos w + D) / (1 + α) * ((cos w - D) / (1 + α)) := by
    field_simp
    linear_combination hDs - hsc
  have hne : (cos w + D) / (1 + α) ≠ (cos w - D) / (1 + α) := by
    intro e
    rw [div_left_inj' hd.ne'] at e
    linarith
  refine ⟨(cos w + D) / (1 + α), (cos w - D) / (1 + α), hne, ?_, ?_, ?_, ?_, fun s => (s.implements sr f Q).fades hne e1 e2 b,
    fun s => (s.implements sr f Q).fades hne e1 e2 b, fun s => (s.implements sr f Q).fades hne e1 e2 b,
    fun s => (s.implements sr f Q).fades hne e1 e2 b, fun s => (s.implements sr f Q).fades hne e1 e2 b,
    fun s => (s.implements sr f Q).fades hne e1 e2 b⟩
  · rw [abs_lt, lt_div_iff₀ hd, div_lt_iff₀ hd]
    constructor <;> linarith
  · rw [abs_lt, lt_div_iff₀ hd, div_lt_iff₀ hd]
    constructor <;> linarith
  · field_simp; ring
  · rw [← e2]; field_simp

/-- **C94**. With `q = 1/2` and a centre frequency other than a quarter of the sample rate: a double pole. -/
theorem C94_rbj_critical (h : ValidParams sr f (1 / 2)) (hf : cos (angle sr f) ≠ 0) (b : Build) : ∃ p : ℝ, |p| < 1 ∧
    p * (1 + sin (angle sr f)) = cos (angle sr f) ∧
    (∀ s : LowPass ℝ, FadesCritically b (s.setCoefficients sr f (1 / 2)) p) ∧ (∀ s : HighPass ℝ, FadesCritically b (s.setCoefficients sr f (1 / 2)) p) ∧
    (∀ s : BandPass1 ℝ, FadesCritically b (s.setCoefficients sr f (1 / 2)) p) ∧ (∀ s : BandPass2 ℝ, FadesCritically b (s.setCoefficients sr f (1 / 2)) p) ∧
    (∀ s : BandStop ℝ, FadesCritically b (s.setCoefficients sr f (1 / 2)) p) ∧ (∀ s : AllPass ℝ, FadesCritically b (s.setCoefficients sr f (1 / 2)) p) := by
  have hsin := h.sin_pos
  have hα : alphaQ sr f (1 / 2) = sin (angle sr f) := by rw [h.alpha_eq]; norm_num
  set w := angle sr f with hw
  have hsc := Real.sin_sq_add_cos_sq w
  obtain ⟨c1, c2⟩ := cos_lt_one_of_sin_pos hsin
  have hd : 0 < 1 + sin w := by linarith
  have hp : cos w / (1 + sin w) ≠ 0 := div_ne_zero hf hd.ne'
  have e1 : -2 * cos w / (1 + alphaQ sr f (1 / 2)) = -(2 * (cos w / (1 + sin w))) := by rw [hα]; field_simp
  have e2 : (1 - alphaQ sr f (1 / 2)) / (1 + alphaQ sr f (1 / 2)) = (cos w / (1 + sin w)) ^ 2 := by
    rw [hα]; field_simp; linear_combination (-1) * hsc
  refine ⟨cos w / (1 + sin w), ?_, by field_simp, fun s => (s.implements sr f _).fadesCritically hp e1 e2 b,
    fun s => (s.implements sr f _).fadesCritically hp e1 e2 b, fun s => (s.implements sr f _).fadesCritically hp e1 e2 b,
    fun s => (s.implements sr f _).fadesCritically hp e1 e2 b, fun s => (s.implements sr f _).fadesCritically hp e1 e2 b,
    fun s => (s.implements sr f _).fadesCritically hp e1 e2 b⟩
  rw [abs_lt, lt_div_iff₀ hd, div_lt_iff₀ hd]
  constructor <;> linarith

/-- **C94**. With `q = 1/2` and a centre frequency of a quarter of the sample rate the poles are at zero: the answer to an impulse
is over after three samples. -/
theorem C94_rbj_quarter (h : ValidParams sr f (1 / 2)) (hf : cos (angle sr f) = 0) (b : Build) :
    (∀ s : LowPass ℝ, Responds b (s.setCoefficients sr f (1 / 2)) unitImpulse fun n => [1 / 4, 1 / 2, 1 / 4].getD n 0) ∧
    (∀ s : HighPass ℝ, Responds b (s.setCoefficients sr f (1 / 2)) unitImpulse fun n => [1 / 4, -1 / 2, 1 / 4].getD n 0) ∧
    (∀ s : BandPass1 ℝ, Responds b (s.setCoefficients sr f (1 / 2)) unitImpulse fun n => [1 / 4, 0, -1 / 4].getD n 0) ∧
    (∀ s : BandPass2 ℝ, Responds b (s.setCoefficients sr f (1 / 2)) unitImpulse fun n => [1 / 2, 0, -1 / 2].getD n 0) ∧
    (∀ s : BandStop ℝ, Responds b (s.setCoefficients sr f (1 / 2)) unitImpulse fun n => [1 / 2, 0, 1 / 2].getD n 0) ∧
    (∀ s : AllPass ℝ, Responds b (s.setCoefficients sr f (1 / 2)) unitImpulse fun n => [0, 0, 1].getD n 0) := by
  have hsin := h.sin_pos
  have hα : alphaQ sr f (1 / 2) = sin (angle sr f) := by rw [h.alpha_eq]; norm_num
  have hsc := Real.sin_sq_add_cos_sq (angle sr f)
  have hs1 : sin (angle sr f) = 1 := by
    rw [hf] at hsc
    nlinarith
  rw [hs1] at hα
  refine ⟨fun s => ?_, fun s => ?_, fun s => ?_, fun s => ?_, fun s => ?_, fun s => ?_⟩
  all_goals
    have := (s.implements sr f (1 / 2)).short (by rw [hf]; norm_num) (by rw [hα]; norm_num) b
    rw [hα] at this
    try rw [hf] at this
    norm_num at this ⊢
    exact this

/-- Parameters of all kinds exist. -/
example : ValidParams 44100 11025 (1 / 2) ∧ cos (angle 44100 11025) = 0 := by
  refine ⟨⟨by norm_num, by norm_num, by norm_num⟩, ?_⟩
  rw [show angle 44100 11025 = Real.pi / 2 by simp only [angle]; ring]
  exact Real.cos_pi_div_two

example : ValidParams 44100 1000 1 ∧ ValidParams 44100 1000 (1 / 4) ∧ ValidParams 44100 1000 (1 / 2) ∧ cos (angle 44100 1000) ≠ 0 := by
  refine ⟨⟨by norm_num, by norm_num, by norm_num⟩, ⟨by norm_num, by norm_num, by norm_num⟩, ⟨by norm_num, by norm_num, by norm_num⟩, ?_⟩
  have := Real.pi_pos
  refine (Real.cos_pos_of_mem_Ioo ⟨?_, ?_⟩).ne' <;> simp only [angle] <;> linarith

end rbj

end Rasp
