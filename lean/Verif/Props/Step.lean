import Verif.Spec.Step
import Verif.Props.Rbj
import Verif.Props.Filters

/-!
# C105: step responses
-/

namespace Rasp
open FloatOps Filter
variable {σ : Type} [Processor σ ℝ] {s : σ} {b0 b1 b2 a0 a1 a2 G : ℝ}

/-! ## Sign changes of second order recurrences -/

theorem recur_nontrivial {e : ℕ → ℝ} (he : ∀ n, e (n + 2) = -a1 * e (n + 1) - a2 * e n) (h2 : 0 < a2) (h0 : e 0 ≠ 0 ∨ e 1 ≠ 0) (n : ℕ) :
    e n ≠ 0 ∨ e (n + 1) ≠ 0 := by
  induction n with
  | zero => exact h0
  | succ n ih =>
    by_contra hc
    push Not at hc
    obtain ⟨c1, c2⟩ := hc
    have := he n
    rw [c1, c2] at this
    have : a2 * e n = 0 := by linarith
    rcases mul_eq_zero.mp this with h | h
    · linarith
    · exact ih.elim (fun g => g h) (fun g => g c1)

/-- With complex roots, or roots that are both negative, the solution becomes negative again and again. -/
theorem recur_negative {e : ℕ → ℝ} (he : ∀ n, e (n + 2) = -a1 * e (n + 1) - a2 * e n) (h2 : 0 < a2) (h0 : e 0 ≠ 0 ∨ e 1 ≠ 0)
    (hc : a1 ^ 2 < 4 * a2 ∨ 0 ≤ a1) (N : ℕ) : ∃ n, N ≤ n ∧ e n < 0 := by
  by_contra hcon
  push Not at hcon
  have hnt := recur_nontrivial he h2 h0
  rcases hc with hc | hc
  · have hpos : ∀ n, N ≤ n → 0 < e (n + 1) := by
      intro n hn
      refine lt_of_le_of_ne (hcon (n + 1) (by omega)) fun h => ?_
      have h1 := he n
      rw [← h] at h1
      have h3 := hcon (n + 2) (by omega)
      have h4 := hcon n hn
      have h5 : e (n + 2) = 0 := by nlinarith
      exact (hnt (n + 1)).elim (fun g => g h.symm) (fun g => g h5)
    have hδ : 0 < a2 - a1 ^ 2 / 4 := by linarith
    let t : ℕ → ℝ := fun n => e (N + n + 2) / e (N + n + 1)
    have ht : ∀ n, 0 < t n := fun n => div_pos (hpos _ (by omega)) (hpos _ (by omega))
    have hstep : ∀ n, t (n + 1) = -a1 - a2 / t n := by
      intro n
      have p1 := hpos (N + n) (by omega)
      have p2 := hpos (N + n + 1) (by omega)
      show e (N + n + 1 + 2) / e (N + n + 2) = -a1 - a2 / (e (N + n + 2) / e (N + n + 1))
      rw [he (N + n + 1)]
      have p3 : e (N + n + 2) ≠ 0 := p2.ne'
      have p4 : e (N + n + 1) ≠ 0 := p1.ne'
      have e1 : N + n + 1 + 1 = N + n + 2 := rfl
      rw [e1]
      field_simp
    have hdrop : ∀ n, t (n + 1) ≤ t n - (a2 - a1 ^ 2 / 4) / t n := by
      intro n
      rw [hstep n]
      have := ht n
      have e1 : t n - (a2 - a1 ^ 2 / 4) / t n - (-a1 - a2 / t n) = (t n + a1 / 2) ^ 2 / t n := by field_simp; ring
      have : 0 ≤ (t n + a1 / 2) ^ 2 / t n := by positivity
      linarith
    have hle : ∀ n : ℕ, t n ≤ t 0 ∧ t n ≤ t 0 - n * ((a2 - a1 ^ 2 / 4) / t 0) := by
      intro n
      induction n with
      | zero => exact ⟨le_refl _, by simp⟩
      | succ n ih =>
        have h3 : (a2 - a1 ^ 2 / 4) / t 0 ≤ (a2 - a1 ^ 2 / 4) / t n := div_le_div_of_nonneg_left hδ.le (ht n) ih.1
        have h4 := hdrop n
        have h5 : 0 < (a2 - a1 ^ 2 / 4) / t 0 := div_pos hδ (ht 0)
        refine ⟨by linarith [ih.1], ?_⟩
        push_cast
        linarith [ih.2]
    obtain ⟨n, hn⟩ := exists_nat_gt (t 0 / ((a2 - a1 ^ 2 / 4) / t 0))
    have h5 : 0 < (a2 - a1 ^ 2 / 4) / t 0 := div_pos hδ (ht 0)
    rw [div_lt_iff₀ h5] at hn
    linarith [(hle n).2, ht n]
  · have hz : ∀ n, N ≤ n → e (n + 2) = 0 := by
      intro n hn
      have h1 := he n
      have h3 := hcon (n + 2) (by omega)
      have h4 := mul_nonneg hc (hcon (n + 1) (by omega))
      have h5 := mul_nonneg h2.le (hcon n hn)
      linarith
    exact (hnt (N + 2)).elim (fun g => g (hz N le_rfl)) (fun g => g (hz (N + 1) (by omega)))

theorem SolvesDiff.step {y : ℕ → ℝ} (h : SolvesDiff b0 b1 b2 a1 a2 (fun _ => 1) y) : y 0 = b0 ∧ y 1 = b0 + b1 - a1 * y 0 ∧
    ∀ n, y (n + 2) = b0 + b1 + b2 - a1 * y (n + 1) - a2 * y n := by
  refine ⟨?_, ?_, fun n => ?_⟩
  · rw [h 0]; simp [lag, real_zero]
  · rw [h 1]; simp [lag, real_zero]
  · rw [h (n + 2)]; simp [lag]

theorem Implements.step_tendsto (hi : Implements s b0 b1 b2 a1 a2) (hs : StablePair a1 a2) (hG : G * (1 + a1 + a2) = b0 + b1 + b2) {b : Build}
    {y : ℕ → ℝ} (hy : Responds b s (fun _ => 1) y) : Tendsto y atTop (nhds G) := by
  have hd := ((hi b _ _).mp hy).step.2.2
  have := second_order_tendsto (w := fun _ => 0) hs (v := fun n => y n - G) (fun n => by rw [hd]; linear_combination -hG) tendsto_const_nhds
  have h2 := this.add_const G
  simpa using h2

/-- Coefficients that make the step response ring. -/
theorem Implements.stepRings (hi : Implements s b0 b1 b2 a1 a2) (hs : StablePair a1 a2) (h2 : 0 < a2) (hc : a1 ^ 2 < 4 * a2 ∨ 0 ≤ a1)
    (hG : G * (1 + a1 + a2) = b0 + b1 + b2) (h0 : b0 ≠ G ∨ b0 + b1 - a1 * b0 ≠ G) : RingsAround s G := by
  intro b
  obtain ⟨y, hy⟩ := hi.from.total b (fun _ => 1)
  obtain ⟨d0, d1, d2⟩ := ((hi b _ _).mp hy).step
  rw [d0] at d1
  refine ⟨y, hy, hi.step_tendsto hs hG hy, fun N => ?_, fun N => ?_⟩
  · obtain ⟨n, hn, h⟩ := recur_negative (e := fun n => G - y n) (a1 := a1) (a2 := a2) (fun n => by rw [d2]; linear_combination hG) h2
      (by rw [d0, d1]; exact h0.imp (fun h h' => h (by linarith)) (fun h h' => h (by linarith))) hc N
    exact ⟨n, hn, by linarith⟩
  · obtain ⟨n, hn, h⟩ := recur_negative (e := fun n => y n - G) (a1 := a1) (a2 := a2) (fun n => by rw [d2]; linear_combination -hG) h2
      (by rw [d0, d1]; exact h0.imp (fun h h' => h (by linarith)) (fun h h' => h (by linarith))) hc N
    exact ⟨n, hn, by linarith⟩

/-- The same with the coefficients before division by `a0`. -/
theorem Implements.stepRings_div (hi : Implements s (b0 / a0) (b1 / a0) (b2 / a0) (a1 / a0) (a2 / a0)) (hs : StablePair (a1 / a0) (a2 / a0))
    (h0 : 0 < a0) (h2 : 0 < a2) (hc : a1 ^ 2 < 4 * a0 * a2 ∨ 0 ≤ a1) (hG : G * (a0 + a1 + a2) = b0 + b1 + b2) (hb : b0 ≠ G * a0) :
    RingsAround s G := by
  refine hi.stepRings hs (div_pos h2 h0) ?_ ?_ (.inl ?_)
  · refine hc.imp (fun h => ?_) (fun h => div_nonneg h h0.le)
    rw [div_pow, div_lt_iff₀ (by positivity)]
    calc a1 ^ 2 < 4 * a0 * a2 := h
      _ = 4 * (a2 / a0) * a0 ^ 2 := by field_simp
  · field_simp; linarith
  · intro h; apply hb; field_simp at h; linarith

/-- Two real poles that are not negative, and no negative numerator: the step response rises. -/
theorem Implements.stepRises {p r : ℝ} (hi : Implements s b0 b1 b2 (-(p + r)) (p * r)) (hs : StablePair (-(p + r)) (p * r)) (hp : 0 ≤ p) (hr : 0 ≤ r)
    (h0 : 0 ≤ b0) (h1 : 0 ≤ b1) (h2 : 0 ≤ b2) (hG : G * (1 + -(p + r) + p * r) = b0 + b1 + b2) : RisesTo s G := by
  intro b
  obtain ⟨y, hy⟩ := hi.from.total b (fun _ => 1)
  obtain ⟨d0, d1, d2⟩ := ((hi b _ _).mp hy).step
  have ht := hi.step_tendsto hs hG hy
  have e0 : y 1 - y 0 - r * y 0 = b1 + p * b0 := by rw [d1, d0]; ring
  have e1 : y 2 - y 1 - r * (y 1 - y 0) = b2 + p * (b1 + p * b0) := by rw [d2 0, ← e0, zero_add, d1, d0]; ring
  have key : ∀ n, 0 ≤ y (n + 1) - y n ∧ 0 ≤ y (n + 2) - y (n + 1) - r * (y (n + 1) - y n) := by
    intro n
    induction n with
    | zero =>
      have p1 := mul_nonneg hp h0
      have p2 := mul_nonneg hp (add_nonneg h1 p1)
      have p3 := mul_nonneg hr h0
      refine ⟨?_, by rw [zero_add, e1]; linarith⟩
      rw [zero_add]
      rw [d0] at e0 ⊢
      linarith
    | succ n ih =>
      obtain ⟨i1, i2⟩ := ih
      refine ⟨by nlinarith [mul_nonneg hr i1], ?_⟩
      have : y (n + 1 + 2) - y (n + 1 + 1) - r * (y (n + 1 + 1) - y (n + 1)) = p * (y (n + 2) - y (n + 1) - r * (y (n + 1) - y n)) := by
        have := d2 (n + 1)
        have h3 := d2 n
        have e2 : n + 1 + 1 = n + 2 := rfl
        rw [e2] at this ⊢
        linear_combination this - h3
      rw [this]
      exact mul_nonneg hp i2
  have hm : Monotone y := monotone_nat_of_le_succ fun n => by linarith [(key n).1]
  exact ⟨y, hy, ht, hm, fun n => hm.ge_of_tendsto ht n⟩

/-! ## Basic filters -/

/-- **C105**, `OnePole`: with a pole between 0 and 1 the step response rises, with one between -1 and 0 it rings. -/
theorem C105_onePole {b0 a1 : ℝ} :
    (0 ≤ b0 → -1 < a1 → a1 ≤ 0 → RisesTo ((OnePole.new : OnePole ℝ).setCoefficients b0 a1) (b0 / (1 + a1))) ∧
    (b0 ≠ 0 → 0 < a1 → a1 < 1 → RingsAround ((OnePole.new : OnePole ℝ).setCoefficients b0 a1) (b0 / (1 + a1))) := by
  have hi : Implements ((OnePole.new : OnePole ℝ).setCoefficients b0 a1) b0 0 0 a1 0 := fun b x y =>
    (C30_new_solve_difference_equation b0 0 0 a1 0).1 b x y
  constructor
  · intro h0 h1 h2
    have hi' : Implements ((OnePole.new : OnePole ℝ).setCoefficients b0 a1) b0 0 0 (-(-a1 + 0)) (-a1 * 0) := by simpa using hi
    refine hi'.stepRises ?_ (by linarith) le_rfl h0 le_rfl le_rfl ?_
    · have : StablePair a1 0 := stablePair_one (by rw [abs_lt]; constructor <;> linarith)
      simpa using this
    · have : 1 + a1 ≠ 0 := by linarith
      field_simp
      ring
  · intro h0 h1 h2 b
    obtain ⟨y, hy⟩ := hi.from.total b (fun _ => 1)
    obtain ⟨d0, d1, d2⟩ := ((hi b _ _).mp hy).step
    have hn : 1 + a1 ≠ 0 := by linarith
    have he : ∀ n, y (n + 1) - b0 / (1 + a1) = -a1 * (y n - b0 / (1 + a1)) := by
      intro n
      rcases n with - | n
      · rw [zero_add, d1]; field_simp; ring
      · rw [d2]; field_simp; ring
    have hne : ∀ n, y n - b0 / (1 + a1) ≠ 0 := by
      intro n
      induction n with
      | zero =>
        rw [d0]
        have : b0 - b0 / (1 + a1) = b0 * a1 / (1 + a1) := by field_simp; ring
        rw [this]
        exact div_ne_zero (mul_ne_zero h0 h1.ne') hn
      | succ n ih => rw [he]; exact mul_ne_zero (by linarith) ih
    refine ⟨y, hy, hi.step_tendsto (stablePair_one (by rw [abs_lt]; constructor <;> linarith)) (by field_simp; ring) hy, fun N => ?_, fun N => ?_⟩
    · rcases lt_or_gt_of_ne (hne N) with h | h
      · exact ⟨N + 1, by omega, by nlinarith [he N]⟩
      · exact ⟨N, le_rfl, by linarith⟩
    · rcases lt_or_gt_of_ne (hne N) with h | h
      · exact ⟨N, le_rfl, by linarith⟩
      · exact ⟨N + 1, by omega, by nlinarith [he N]⟩

/-- **C105**, `TwoPole`: with complex poles the step response rings, with real poles between 0 and 1 it rises. -/
theorem C105_twoPole {b0 a1 a2 : ℝ} :
    (b0 ≠ 0 → a2 < 1 → a1 ^ 2 < 4 * a2 → RingsAround ((TwoPole.new : TwoPole ℝ).setCoefficients b0 a1 a2) (b0 / (1 + a1 + a2))) ∧
    (∀ p r : ℝ, 0 ≤ b0 → 0 ≤ p → p < 1 → 0 ≤ r → r < 1 →
      RisesTo ((TwoPole.new : TwoPole ℝ).setCoefficients b0 (-(p + r)) (p * r)) (b0 / ((1 - p) * (1 - r)))) := by
  have hi : ∀ a1 a2 : ℝ, Implements ((TwoPole.new : TwoPole ℝ).setCoefficients b0 a1 a2) b0 0 0 a1 a2 := fun a1 a2 b x y =>
    (C30_new_solve_difference_equation b0 0 0 a1 a2).2.2.1 b x y
  constructor
  · intro h0 h1 h2
    have h3 : 0 < a2 := by nlinarith
    have h4 : |a1| < 1 + a2 := abs_lt_of_sq_lt_sq (by nlinarith) (by linarith)
    have h5 : 1 + a1 + a2 ≠ 0 := by have := (abs_lt.mp h4).1; linarith
    refine (hi a1 a2).stepRings ⟨by rw [abs_of_pos h3]; exact h1, h4⟩ h3 (.inl h2) (by field_simp; ring) ?_
    by_contra hcon
    push Not at hcon
    obtain ⟨c1, c2⟩ := hcon
    rw [eq_div_iff h5] at c1 c2
    have c3 : b0 * (a1 + a2) = 0 := by linarith
    have c4 : a1 + a2 = 0 := (mul_eq_zero.mp c3).resolve_left h0
    have c5 : b0 * a1 = 0 := by
      have : 1 + a1 + a2 = 1 := by linarith
      rw [this] at c1 c2
      linarith
    have c6 : a1 = 0 := (mul_eq_zero.mp c5).resolve_left h0
    rw [c6] at c4
    linarith
  · intro p r h0 p1 p2 r1 r2
    refine (hi _ _).stepRises ?_ p1 r1 h0 le_rfl le_rfl ?_
    · refine ⟨?_, ?_⟩
      · rw [abs_of_nonneg (mul_nonneg p1 r1)]; nlinarith
      · rw [abs_neg, abs_of_nonneg (add_nonneg p1 r1)]; nlinarith [mul_pos (show 0 < 1 - p by linarith) (show 0 < 1 - r by linarith)]
    · have e1 : 1 - p ≠ 0 := by linarith
      have e2 : 1 - r ≠ 0 := by linarith
      field_simp
      ring

/-! ## rbj filters -/

variable {sr f q db S : ℝ}

theorem cos_nonpos_of_quarter (h : ValidParams sr f q) (hf : sr / 4 ≤ f) : Real.cos (angle sr f) ≤ 0 := by
  have hsr : 0 < sr := by have := h.1; have := h.2.1; linarith
  have hp := Real.pi_pos
  refine Real.cos_nonpos_of_pi_div_two_le_of_le ?_ ?_
  · unfold angle; rw [le_div_iff₀ hsr]; nlinarith
  · unfold angle; rw [div_le_iff₀ hsr]; nlinarith [h.2.1]

theorem cos_nonneg_of_quarter (h : ValidParams sr f q) (hf : f ≤ sr / 4) : 0 ≤ Real.cos (angle sr f) := by
  have hsr : 0 < sr := by have := h.1; have := h.2.1; linarith
  have hp := Real.pi_pos
  refine Real.cos_nonneg_of_mem_Icc ⟨?_, ?_⟩
  · have : 0 ≤ angle sr f := div_nonneg (by have := h.1; positivity) hsr.le
    linarith
  · unfold angle; rw [div_le_iff₀ hsr]; nlinarith

/-- The denominators `1 + β, -2 cos w0, 1 - β`. -/
theorem ring_condition (h : ValidParams sr f q) {β k : ℝ} (hk : 0 < k) (hβ : β = Real.sin (angle sr f) / (2 * k))
    (hc : 1 / 2 < k ∨ (sr / 4 ≤ f ∧ Real.sin (angle sr f) < 2 * k)) :
    0 < 1 + β ∧ 0 < 1 - β ∧ ((-2 * Real.cos (angle sr f)) ^ 2 < 4 * (1 + β) * (1 - β) ∨ 0 ≤ -2 * Real.cos (angle sr f)) := by
  have hs := h.sin_pos
  have hs1 := Real.sin_le_one (angle sr f)
  have hβ0 : 0 < β := by rw [hβ]; positivity
  have hβ1 : β < 1 := by
    rw [hβ, div_lt_one (by positivity)]
    rcases hc with hc | hc
    · linarith
    · exact hc.2
  refine ⟨by linarith, by linarith, ?_⟩
  rcases hc with hc | hc
  · left
    have : β < Real.sin (angle sr f) := by
      rw [hβ, div_lt_iff₀ (by positivity)]
      nlinarith
    nlinarith [Real.sin_sq_add_cos_sq (angle sr f)]
  · right
    linarith [cos_nonpos_of_quarter h hc.1]

/-- **C105**: with `q` above 1/2 the step responses of six filters ring, and for frequencies from a quarter of the sample rate on already with lower `q`. -/
theorem C105_rings (h : ValidParams sr f q) (hc : 1 / 2 < q ∨ (sr / 4 ≤ f ∧ Real.sin (angle sr f) < 2 * q)) :
    (∀ s : LowPass ℝ, RingsAround (s.setCoefficients sr f q) 1) ∧ (∀ s : HighPass ℝ, RingsAround (s.setCoefficients sr f q) 0) ∧
    (∀ s : BandPass1 ℝ, RingsAround (s.setCoefficients sr f q) 0) ∧ (∀ s : BandPass2 ℝ, RingsAround (s.setCoefficients sr f q) 0) ∧
    (∀ s : BandStop ℝ, RingsAround (s.setCoefficients sr f q) 1) ∧ (∀ s : AllPass ℝ, RingsAround (s.setCoefficients sr f q) 1) := by
  obtain ⟨h0, h2, hr⟩ := ring_condition h h.2.2 (β := alphaQ sr f q) rfl hc
  have hα := h.alphaQ_pos
  obtain ⟨c1, c2⟩ := cos_lt_one_of_sin_pos h.sin_pos
  have hs := h.stable hα
  have hq := h.2.2
  refine ⟨fun s => (s.implements sr f q).stepRings_div hs h0 h2 hr (by ring) ?_, fun s => (s.implements sr f q).stepRings_div hs h0 h2 hr (by ring) ?_,
    fun s => (s.implements sr f q).stepRings_div hs h0 h2 hr (by ring) ?_, fun s => (s.implements sr f q).stepRings_div hs h0 h2 hr (by ring) ?_,
    fun s => (s.implements sr f q).stepRings_div hs h0 h2 hr (by ring) ?_, fun s => (s.implements sr f q).stepRings_div hs h0 h2 hr (by ring) ?_⟩
  · intro e; linarith
  · intro e; linarith
  · rw [zero_mul]; exact mul_ne_zero hq.ne' hα.ne'
  · rw [zero_mul]; exact hα.ne'
  · intro e; linarith
  · intro e; linarith

/-- **C105**, `Peak`: the same with `q A` in place of `q`, `A = 10^(db/40)`. -/
theorem C105_rings_peak (h : ValidParams sr f q) (hdb : db ≠ 0)
    (hc : 1 / 2 < q * 10 ^ (db / 40) ∨ (sr / 4 ≤ f ∧ Real.sin (angle sr f) < 2 * (q * 10 ^ (db / 40)))) (s : Peak ℝ) :
    RingsAround (s.setCoefficients sr f db q) 1 := by
  have hA := gainA_pos db
  have hα := h.alphaQ_pos
  obtain ⟨h0, h2, hr⟩ := ring_condition h (mul_pos h.2.2 hA) (β := alphaQ sr f q / gainA db)
    (by unfold alphaQ; have := h.2.2; field_simp) hc
  refine (s.implements sr f db q).stepRings_div (h.stable (div_pos hα hA)) h0 h2 hr (by field_simp; ring) ?_
  intro e
  have e1 : alphaQ sr f q * (gainA db ^ 2 - 1) = 0 := by
    field_simp at e
    linarith
  have e2 : (gainA db - 1) * (gainA db + 1) = 0 := by
    have := (mul_eq_zero.mp e1).resolve_left hα.ne'
    linarith
  have e3 : gainA db = 1 := by
    rcases mul_eq_zero.mp e2 with e | e
    · linarith
    · linarith
  have hne : gainA db ≠ 1 := by
    unfold gainA
    rcases lt_or_gt_of_ne hdb with h | h
    · exact (Real.rpow_lt_one_of_one_lt_of_neg (by norm_num) (by linarith)).ne
    · exact (Real.one_lt_rpow (by norm_num) (by linarith)).ne'
  exact hne e3

/-- **C105**: shelves that are steep enough ring; slope 1 always does. -/
theorem C105_rings_shelves (h : ValidShelf sr f S) (hdb : db ≠ 0)
    (hc : ((10 : ℝ) ^ (db / 40) + 1 / 10 ^ (db / 40)) * (1 / S - 1) < 2) :
    (∀ s : LowShelf ℝ, RingsAround (s.setCoefficients sr f db S) (dbFactor db)) ∧ (∀ s : HighShelf ℝ, RingsAround (s.setCoefficients sr f db S) 1) := by
  have hA := gainA_pos db
  have hne : gainA db ≠ 1 := by
    unfold gainA
    rcases lt_or_gt_of_ne hdb with h | h
    · exact (Real.rpow_lt_one_of_one_lt_of_neg (by norm_num) (by linarith)).ne
    · exact (Real.one_lt_rpow (by norm_num) (by linarith)).ne'
  obtain ⟨c1, c2⟩ := cos_lt_one_of_sin_pos h.params.sin_pos
  have hv := h.product_pos (db := db)
  have hv2 : (2 * Real.sqrt (gainA db) * alphaS sr f (gainA db) S) ^ 2 < 4 * gainA db * (1 - Real.cos (angle sr f) ^ 2) := by
    have e2 : 1 - Real.cos (angle sr f) ^ 2 = Real.sin (angle sr f) ^ 2 := by linarith [Real.sin_sq_add_cos_sq (angle sr f)]
    have hrad := h.sqrt_arg_pos hA
    have e1 : (2 * Real.sqrt (gainA db) * alphaS sr f (gainA db) S) ^ 2 =
        gainA db * ((gainA db + 1 / gainA db) * (1 / S - 1) + 2) * Real.sin (angle sr f) ^ 2 := by
      unfold alphaS
      have q1 := Real.sq_sqrt hA.le
      have q2 := Real.sq_sqrt hrad.le
      calc _ = Real.sqrt (gainA db) ^ 2 * Real.sqrt ((gainA db + 1 / gainA db) * (1 / S - 1) + 2) ^ 2 * Real.sin (angle sr f) ^ 2 := by ring
        _ = _ := by rw [q1, q2]
    rw [e1, e2]
    have hs2 : 0 < Real.sin (angle sr f) ^ 2 := pow_pos h.params.sin_pos 2
    refine mul_lt_mul_of_pos_right ?_ hs2
    have : (gainA db + 1 / gainA db) * (1 / S - 1) < 2 := hc
    nlinarith
  have hsL := lowShelf_stable hA c1 c2 hv
  have hsH := highShelf_stable hA c1 c2 hv
  have pL := lowShelf_den_pos hA c1 c2 hv
  have pH := highShelf_den_pos hA c1 c2 hv
  rw [← gainA_sq]
  constructor
  · intro s
    have i := s.implements sr f db S
    generalize 2 * Real.sqrt (gainA db) * alphaS sr f (gainA db) S = v at *
    generalize Real.cos (angle sr f) = c at *
    generalize gainA db = A at *
    have hd : (-2 * (A - 1 + (A + 1) * c)) ^ 2 < 4 * (A + 1 + (A - 1) * c + v) * (A + 1 + (A - 1) * c - v) := by nlinarith
    refine i.stepRings_div hsL pL ?_ (.inl hd) (by ring) ?_
    · by_contra hneg
      nlinarith [sq_nonneg (-2 * (A - 1 + (A + 1) * c))]
    · intro e
      have e1 : (1 - A) * (A * ((A + 1) * (1 + c) + v)) = 0 := by linear_combination e
      rcases mul_eq_zero.mp e1 with e2 | e2
      · exact hne (by linarith)
      · have : 0 < A * ((A + 1) * (1 + c) + v) := by
          have : 0 < 1 + c := by linarith
          positivity
        linarith
  · intro s
    have i := s.implements sr f db S
    generalize 2 * Real.sqrt (gainA db) * alphaS sr f (gainA db) S = v at *
    generalize Real.cos (angle sr f) = c at *
    generalize gainA db = A at *
    have hd : (2 * (A - 1 - (A + 1) * c)) ^ 2 < 4 * (A + 1 - (A - 1) * c + v) * (A + 1 - (A - 1) * c - v) := by nlinarith
    refine i.stepRings_div hsH pH ?_ (.inl hd) (by ring) ?_
    · by_contra hneg
      nlinarith [sq_nonneg (2 * (A - 1 - (A + 1) * c))]
    · intro e
      have e1 : (A - 1) * ((A + 1) * (1 + c) + v) = 0 := by linear_combination e
      rcases mul_eq_zero.mp e1 with e2 | e2
      · exact hne (by linarith)
      · have : 0 < (A + 1) * (1 + c) + v := by
          have : 0 < 1 + c := by linarith
          positivity
        linarith

/-- **C105**: with `q` at most 1/2 (but not below `sin(w0)/2`) and up to a quarter of the sample rate the step response of a low pass filter rises
to 1 and never overshoots. -/
theorem C105_lowPass_rises (h : ValidParams sr f q) (hq : q ≤ 1 / 2) (hf : f ≤ sr / 4) (hs : Real.sin (angle sr f) ≤ 2 * q) (s : LowPass ℝ) :
    RisesTo (s.setCoefficients sr f q) 1 := by
  have hα := h.alphaQ_pos
  have hc := cos_nonneg_of_quarter h hf
  have hs0 := h.sin_pos
  obtain ⟨c1, c2⟩ := cos_lt_one_of_sin_pos hs0
  have hα1 : alphaQ sr f q ≤ 1 := by unfold alphaQ; rw [div_le_one (by have := h.2.2; positivity)]; exact hs
  have hαs : Real.sin (angle sr f) ≤ alphaQ sr f q := by
    unfold alphaQ
    have := h.2.2
    rw [le_div_iff₀ (by positivity)]
    nlinarith
  have hD : 0 ≤ alphaQ sr f q ^ 2 - Real.sin (angle sr f) ^ 2 := by nlinarith
  have hroot := Real.sq_sqrt hD
  have hr0 := Real.sqrt_nonneg (alphaQ sr f q ^ 2 - Real.sin (angle sr f) ^ 2)
  have hsc := Real.sin_sq_add_cos_sq (angle sr f)
  have i := s.implements sr f q
  have hst := h.stable hα
  generalize hR : Real.sqrt (alphaQ sr f q ^ 2 - Real.sin (angle sr f) ^ 2) = R at *
  generalize alphaQ sr f q = α at *
  generalize Real.cos (angle sr f) = c at *
  have h1 : 0 < 1 + α := by linarith
  have hRc : R ≤ c := by
    refine le_of_sq_le_sq ?_ hc
    nlinarith
  have e1 : -2 * c / (1 + α) = -((c + R) / (1 + α) + (c - R) / (1 + α)) := by field_simp; ring
  have e2 : (1 - α) / (1 + α) = (c + R) / (1 + α) * ((c - R) / (1 + α)) := by
    have : (c + R) * (c - R) = (1 - α) * (1 + α) := by linear_combination hsc - hroot
    rw [div_mul_div_comm, this]
    field_simp
  rw [e1, e2] at i hst
  have hb : 0 ≤ (1 - c) / 2 / (1 + α) := div_nonneg (by linarith) h1.le
  refine i.stepRises hst (div_nonneg (by linarith) h1.le) (div_nonneg (by linarith) h1.le) hb (div_nonneg (by linarith) h1.le) hb ?_
  rw [← e1, ← e2]
  field_simp
  ring

/-! ## The hypotheses can be met -/

theorem angle_12 : Real.sin (angle 12 1) = 1 / 2 := by
  have : angle 12 1 = Real.pi / 6 := by unfold angle; ring
  rw [this, Real.sin_pi_div_six]

/-- `q = 1` rings, `q = 1/2` and `q = 1/4` do not, at a twelfth of the sample rate. -/
example (s : LowPass ℝ) : RingsAround (s.setCoefficients 12 1 1) 1 ∧ RisesTo (s.setCoefficients 12 1 (1 / 2)) 1 ∧
    RisesTo (s.setCoefficients 12 1 (1 / 4)) 1 :=
  ⟨(C105_rings ⟨by norm_num, by norm_num, by norm_num⟩ (.inl (by norm_num))).1 s,
    C105_lowPass_rises ⟨by norm_num, by norm_num, by norm_num⟩ (by norm_num) (by norm_num) (by rw [angle_12]; norm_num) s,
    C105_lowPass_rises ⟨by norm_num, by norm_num, by norm_num⟩ (by norm_num) (by norm_num) (by rw [angle_12]; norm_num) s⟩

/-- Five twelfths of the sample rate, `q = 1/2`: rings. -/
example (s : LowPass ℝ) : RingsAround (s.setCoefficients 12 5 (1 / 2)) 1 := by
  refine (C105_rings ⟨by norm_num, by norm_num, by norm_num⟩ (.inr ⟨by norm_num, ?_⟩)).1 s
  have : angle 12 5 = Real.pi - Real.pi / 6 := by unfold angle; ring
  rw [this, Real.sin_pi_sub, Real.sin_pi_div_six]
  norm_num

example (s : Peak ℝ) : RingsAround (s.setCoefficients 12 1 40 1) 1 :=
  C105_rings_peak ⟨by norm_num, by norm_num, by norm_num⟩ (by norm_num) (.inl (by norm_num)) s

example (s : LowShelf ℝ) : RingsAround (s.setCoefficients 12 1 40 1) (dbFactor 40) :=
  (C105_rings_shelves ⟨by norm_num, by norm_num, by norm_num, le_rfl⟩ (by norm_num) (by norm_num)).1 s

end Rasp
