import Verif.Spec.Convolution
import Verif.Props.Filters
import Verif.Props.Rbj
import Verif.Props.Leaky
import Verif.Props.LinearReal
import Verif.Props.DelayGrow
import Mathlib.RingTheory.PowerSeries.Basic

/-!
# C87: everything linear is a convolution; the order of a cascade does not matter
-/

namespace Rasp
open FloatOps

section
variable {σ τ : Type} [Processor σ ℝ] [Processor τ ℝ] {b : Build} {s : σ} {t : τ}

/-- Outputs depend only on the inputs so far. -/
theorem Responds.causal {x x' y y' : ℕ → ℝ} (h : Responds b s x y) (h' : Responds b s x' y') (n : ℕ) (hx : ∀ k ≤ n, x k = x' k) :
    y n = y' n := by
  obtain ⟨st, h0, hs⟩ := h
  obtain ⟨st', h0', hs'⟩ := h'
  have key : ∀ k ≤ n, st k = st' k := by
    intro k
    induction k with
    | zero => intro _; rw [h0, h0']
    | succ k ih =>
      intro hk
      have h1 := hs k
      rw [ih (by omega), hx k (by omega), hs' k] at h1
      exact (Prod.mk.inj (Except.ok.inj h1)).1.symm
  have h1 := hs n
  rw [key n le_rfl, hx n le_rfl, hs' n] at h1
  exact (Prod.mk.inj (Except.ok.inj h1)).2.symm

theorem convolve_impulse (h : ℕ → ℝ) : convolve h unitImpulse = h := by
  funext n
  unfold convolve unitImpulse
  rw [Finset.sum_eq_single n]
  · simp
  · intro k hk hne
    rw [Finset.mem_range] at hk
    rw [if_neg (by omega), mul_zero]
  · simp

theorem mk_convolve (h x : ℕ → ℝ) : PowerSeries.mk (convolve h x) = PowerSeries.mk h * PowerSeries.mk x := by
  ext n
  rw [PowerSeries.coeff_mk, PowerSeries.coeff_mul, Finset.Nat.sum_antidiagonal_eq_sum_range_succ_mk]
  simp [convolve]

theorem convolve_left_comm (h h' x : ℕ → ℝ) : convolve h (convolve h' x) = convolve h' (convolve h x) := by
  have : PowerSeries.mk (convolve h (convolve h' x)) = PowerSeries.mk (convolve h' (convolve h x)) := by
    simp only [mk_convolve]; ring
  funext n
  have := congrArg (PowerSeries.coeff n) this
  simpa using this

theorem IsConvolution.of_iff {h : ℕ → ℝ} (hi : ∀ x y, Responds b s x y ↔ y = convolve h x) : IsConvolution b s :=
  ⟨h, (hi _ _).mpr (convolve_impulse h).symm, hi⟩

/-- Linear and time-invariant processors convolve. -/
theorem isConvolution_of_lti (hl : IsLinear s) (ht : IsTimeInvariant s) (b : Build) : IsConvolution b s := by
  obtain ⟨h, hh⟩ := hl.1 b unitImpulse
  have hz : Responds b s (fun _ => 0) (fun _ => 0) := by
    have := hl.2 b _ _ _ _ 0 0 hh hh
    simpa using this
  have hsum : ∀ (x : ℕ → ℝ) (m : ℕ), Responds b s (fun n => ∑ k ∈ Finset.range m, x k * lag unitImpulse k n)
      (fun n => ∑ k ∈ Finset.range m, x k * lag h k n) := by
    intro x m
    induction m with
    | zero => simpa using hz
    | succ m ih =>
      have := hl.2 b _ _ _ _ 1 (x m) ih (ht.2 b _ _ m hh)
      simpa [Finset.sum_range_succ] using this
  have hx : ∀ (x : ℕ → ℝ) (m n : ℕ), n < m → ∑ k ∈ Finset.range m, x k * lag unitImpulse k n = x n := by
    intro x m n hn
    rw [Finset.sum_eq_single n]
    · simp [lag, unitImpulse]
    · intro k _ hk
      unfold lag unitImpulse
      split_ifs with h1 h2
      · omega
      · rw [mul_zero]
      · simp
    · intro h1; simp at h1; omega
  have hy : ∀ (x : ℕ → ℝ) (n : ℕ), ∑ k ∈ Finset.range (n + 1), x k * lag h k n = convolve h x n := by
    intro x n
    unfold convolve
    rw [← Finset.sum_range_reflect]
    refine Finset.sum_congr rfl fun k hk => ?_
    rw [Finset.mem_range] at hk
    have e1 : n + 1 - 1 - k = n - k := by omega
    have e2 : n - (n - k) = k := by omega
    rw [e1, lag, if_pos (by omega), e2, mul_comm]
  refine .of_iff (h := h) fun x y => ⟨fun hr => ?_, ?_⟩
  · funext n
    rw [← hy]
    exact hr.causal (hsum x (n + 1)) n fun k hk => (hx x (n + 1) k (by omega)).symm
  · rintro rfl
    obtain ⟨y, hr⟩ := hl.1 b x
    convert hr using 1
    funext n
    rw [← hy]
    exact ((hr.causal (hsum x (n + 1)) n fun k hk => (hx x (n + 1) k (by omega)).symm)).symm

theorem Implements.isConvolution {b0 b1 b2 a1 a2 : ℝ} (h : Implements s b0 b1 b2 a1 a2) (b : Build) : IsConvolution b s :=
  isConvolution_of_lti h.isLinear h.isTimeInvariant b
end

/-- **C87**: every cleared basic filter and LeakyIntegrator convolves with its impulse response. -/
theorem C87_filters (b : Build) :
    (∀ s : OnePole ℝ, IsConvolution b s.clear) ∧ (∀ s : OneZero ℝ, IsConvolution b s.clear) ∧
    (∀ s : TwoPole ℝ, IsConvolution b s.clear) ∧ (∀ s : TwoZero ℝ, IsConvolution b s.clear) ∧
    (∀ s : Biquad1 ℝ, IsConvolution b s.clear) ∧ (∀ s : Biquad2 ℝ, IsConvolution b s.clear) ∧
    (∀ s : LeakyIntegrator ℝ, IsConvolution b s.clear) := by
  obtain ⟨h1, h2, h3, h4, h5, h6⟩ := C30_cleared_solve_difference_equation
  refine ⟨fun s => (h1 s).isConvolution b, fun s => (h2 s).isConvolution b, fun s => (h3 s).isConvolution b,
    fun s => (h4 s).isConvolution b, fun s => (h5 s).isConvolution b, fun s => (h6 s).isConvolution b, fun s => ?_⟩
  obtain ⟨h, -, hh⟩ := (h1 { y_z1 := 0, b0 := 1 - s.getAlpha, a1 := -s.getAlpha }).isConvolution b
  exact .of_iff fun x y => (C48_is_onePole s.clear b x y).trans (hh x y)

/-- **C87**, rbj filters after `set_coefficients`, any parameters. -/
theorem C87_rbj (b : Build) (sr f q db S : ℝ) :
    (∀ s : LowPass ℝ, IsConvolution b (s.setCoefficients sr f q)) ∧ (∀ s : HighPass ℝ, IsConvolution b (s.setCoefficients sr f q)) ∧
    (∀ s : BandPass1 ℝ, IsConvolution b (s.setCoefficients sr f q)) ∧ (∀ s : BandPass2 ℝ, IsConvolution b (s.setCoefficients sr f q)) ∧
    (∀ s : BandStop ℝ, IsConvolution b (s.setCoefficients sr f q)) ∧ (∀ s : AllPass ℝ, IsConvolution b (s.setCoefficients sr f q)) ∧
    (∀ s : Peak ℝ, IsConvolution b (s.setCoefficients sr f db q)) ∧ (∀ s : LowShelf ℝ, IsConvolution b (s.setCoefficients sr f db S)) ∧
    (∀ s : HighShelf ℝ, IsConvolution b (s.setCoefficients sr f db S)) :=
  ⟨fun s => (s.implements sr f q).isConvolution b, fun s => (s.implements sr f q).isConvolution b,
   fun s => (s.implements sr f q).isConvolution b, fun s => (s.implements sr f q).isConvolution b,
   fun s => (s.implements sr f q).isConvolution b, fun s => (s.implements sr f q).isConvolution b,
   fun s => (s.implements sr f db q).isConvolution b, fun s => (s.implements sr f db S).isConvolution b,
   fun s => (s.implements sr f db S).isConvolution b⟩

theorem convolve_delta (e : ℕ) (x : ℕ → ℝ) : convolve (fun k => if k = e then 1 else 0) x = fun n => if e ≤ n then x (n - e) else 0 := by
  funext n
  unfold convolve
  split_ifs with h
  · rw [Finset.sum_eq_single e]
    · simp
    · intro k _ hk; beta_reduce; rw [if_neg hk, zero_mul]
    · intro h1; simp at h1; omega
  · refine Finset.sum_eq_zero fun k hk => ?_
    rw [Finset.mem_range] at hk
    beta_reduce; rw [if_neg (by omega), zero_mul]

/-- The kernel of linear interpolation at distance `d`. -/
noncomputable def tent (d : ℝ) (k : ℕ) : ℝ :=
  (1 - (d - ⌊d⌋₊)) * (if k = ⌊d⌋₊ then 1 else 0) + (d - ⌊d⌋₊) * (if k = ⌊d⌋₊ + 1 then 1 else 0)

theorem convolve_tent (d : ℝ) (x : ℕ → ℝ) : convolve (tent d) x = interp d [] x := by
  funext n
  have h1 := congrFun (convolve_delta ⌊d⌋₊ x) n
  have h2 := congrFun (convolve_delta (⌊d⌋₊ + 1) x) n
  have e : ∀ k, delayedBy k ([] : List ℝ) x n = if k ≤ n then x (n - k) else 0 := by
    intro k; unfold delayedBy; rfl
  unfold interp
  rw [e, e, ← h1, ← h2]
  unfold convolve tent
  rw [Finset.mul_sum, Finset.mul_sum, ← Finset.sum_add_distrib]
  refine Finset.sum_congr rfl fun k _ => ?_
  ring

variable {b : Build}

/-- **C87**, delay lines: new ones, and cleared ones after any calls within range (for `LinearDelay`, without a pending
`next_out`). -/
theorem C87_delays [Target] {m : ℕ} (hm : Allocatable ℝ m) :
    (∀ (d : ℕ) (s : Delay ℝ), Delay.new b d m = .ok s → IsConvolution b s) ∧
    (∀ (d : ℕ) (s s1 : Delay ℝ) (ops : List (DelayOp ℝ)) (os : List (Obs ℝ)), Delay.new b d m = .ok s →
      (∀ op ∈ ops, op.InRange (m + 1)) → s.run b ops = .ok (s1, os) → IsConvolution b s1.clear) ∧
    (∀ (d : ℝ) (s : LinearDelay ℝ ℝ), LinearDelay.new b d m = .ok s → IsConvolution b s) ∧
    (∀ (d : ℝ) (s s1 : LinearDelay ℝ ℝ) (ops : List (LinOp ℝ ℝ)) (os : List (Obs ℝ)), LinearDelay.new b d m = .ok s →
      (∀ op ∈ ops, op.InRange (m + 1)) → s.run b ops = .ok (s1, os) → pendingAfter false ops = false → IsConvolution b s1.clear) := by
  refine ⟨fun d s hs => ?_, fun d s s1 ops os hs ho hr => ?_, fun d s hs => ?_, fun d s s1 ops os hs ho hr hp => ?_⟩
  · obtain ⟨s', hs', h⟩ := C07_new_delay_is_pure_delay (b := b) (d := d) hm
    rw [hs'] at hs
    cases hs
    exact .of_iff fun x y => by rw [h, convolve_delta]; rfl
  · exact .of_iff fun x y => by rw [(C19_clear_empties_delay hm hs ho hr).2.2, convolve_delta]; rfl
  · obtain ⟨s', hs', -, h⟩ := C20_new_interpolates (b := b) hm d
    rw [hs'] at hs
    cases hs
    exact .of_iff fun x y => by rw [h, convolve_tent]
  · exact .of_iff fun x y => by rw [C28_clear_empties hm hs ho hr hp, convolve_tent]

/-- **C87**: two such processors in a row can be swapped. -/
theorem C87_cascade_commutes {σ τ : Type} [Processor σ ℝ] [Processor τ ℝ] {s : σ} {t : τ} (hs : IsConvolution b s)
    (ht : IsConvolution b t) (x z : ℕ → ℝ) : Cascade b s t x z ↔ Cascade b t s x z := by
  obtain ⟨h, -, hh⟩ := hs
  obtain ⟨k, -, hk⟩ := ht
  simp only [Cascade, hh, hk, exists_eq_left]
  rw [convolve_left_comm]

/-- They can be swapped, and the cascade does respond: a smoother and a two-zero filter. -/
example (x : ℕ → ℝ) : ∃ z, Cascade b (LeakyIntegrator.new : LeakyIntegrator ℝ).clear (TwoZero.new : TwoZero ℝ).clear x z ∧
    Cascade b (TwoZero.new : TwoZero ℝ).clear (LeakyIntegrator.new : LeakyIntegrator ℝ).clear x z := by
  obtain ⟨h, -, hh⟩ := (C87_filters b).2.2.2.2.2.2 LeakyIntegrator.new
  obtain ⟨k, -, hk⟩ := (C87_filters b).2.2.2.1 TwoZero.new
  refine ⟨convolve k (convolve h x), ⟨_, (hh _ _).mpr rfl, (hk _ _).mpr rfl⟩, ⟨_, (hk _ _).mpr rfl, (hh _ _).mpr ?_⟩⟩
  exact convolve_left_comm _ _ _

end Rasp
