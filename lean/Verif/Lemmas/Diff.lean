import Verif.Lemmas.Recur
import Verif.Lemmas.Stream
import Verif.Model.Filters

/-!
# From filter states to difference equations
-/

namespace Rasp
open FloatOps Filter Topology

section
variable {T : Type} [FloatOps T]

@[simp] theorem lag_zero (x : ℕ → T) (n : ℕ) : lag x 0 n = x n := by simp [lag]

@[simp] theorem lag_succ_zero (x : ℕ → T) (k : ℕ) : lag x (k + 1) 0 = zero := by simp [lag]

@[simp] theorem lag_succ_succ (x : ℕ → T) (k n : ℕ) : lag x (k + 1) (n + 1) = lag x k n := by
  simp [lag]

@[simp] theorem lag_one_zero (x : ℕ → T) : lag x 1 0 = zero := lag_succ_zero x 0

@[simp] theorem lag_two_zero (x : ℕ → T) : lag x 2 0 = zero := lag_succ_zero x 1

@[simp] theorem lag_one_succ (x : ℕ → T) (n : ℕ) : lag x 1 (n + 1) = x n := by
  rw [show (1 : ℕ) = 0 + 1 from rfl, lag_succ_succ, lag_zero]

@[simp] theorem lag_two_succ (x : ℕ → T) (n : ℕ) : lag x 2 (n + 1) = lag x 1 n := by
  rw [show (2 : ℕ) = 1 + 1 from rfl, lag_succ_succ]

omit [FloatOps T] in
/-- If the states are known in terms of the streams, responding means satisfying the output equation. -/
theorem responds_iff_of_states {σ : Type} [Processor σ T] {b : Build} {s : σ} {x y : ℕ → T} (F : ℕ → σ) (E : ℕ → T)
    (h0 : F 0 = s) (hF : ∀ n, ∃ s', Processor.process b (F n) (x n) = .ok (s', E n) ∧ (y n = E n → s' = F (n + 1))) :
    Responds b s x y ↔ ∀ n, y n = E n := by
  constructor
  · rintro ⟨st, hst0, hst⟩
    have key : ∀ n, st n = F n ∧ y n = E n := by
      intro n
      induction n with
      | zero =>
        obtain ⟨s', hp, _⟩ := hF 0
        have := hst 0
        rw [hst0, ← h0, hp] at this
        exact ⟨hst0.trans h0.symm, (Prod.mk.inj (Except.ok.inj this)).2.symm⟩
      | succ n ih =>
        obtain ⟨s', hp, hs'⟩ := hF n
        have := hst n
        rw [ih.1, hp] at this
        have h1 : st (n + 1) = F (n + 1) := by
          rw [← (Prod.mk.inj (Except.ok.inj this)).1, hs' ih.2]
        obtain ⟨s'', hp', _⟩ := hF (n + 1)
        have h2 := hst (n + 1)
        rw [h1, hp'] at h2
        exact ⟨h1, (Prod.mk.inj (Except.ok.inj h2)).2.symm⟩
    exact fun n => (key n).2
  · intro hE
    refine ⟨F, h0, fun n => ?_⟩
    obtain ⟨s', hp, hs'⟩ := hF n
    rw [hp, hs' (hE n), hE n]

end

/-! ## Solutions of the difference equation -/

theorem solvesDiffFrom_zero {b0 b1 b2 a1 a2 : ℝ} {x y : ℕ → ℝ} :
    SolvesDiffFrom 0 0 b0 b1 b2 a1 a2 x y ↔ SolvesDiff b0 b1 b2 a1 a2 x y := by
  unfold SolvesDiffFrom SolvesDiff
  simp

theorem SolvesDiffFrom.tail {c0 c1 b0 b1 b2 a1 a2 : ℝ} {x y : ℕ → ℝ} (h : SolvesDiffFrom c0 c1 b0 b1 b2 a1 a2 x y) (n : ℕ) :
    y (n + 2) = b0 * x (n + 2) + b1 * x (n + 1) + b2 * x n - a1 * y (n + 1) - a2 * y n := by
  have := h (n + 2)
  simpa using this

theorem SolvesDiffFrom.zero {c0 c1 b0 b1 b2 a1 a2 : ℝ} {x y : ℕ → ℝ} (h : SolvesDiffFrom c0 c1 b0 b1 b2 a1 a2 x y) :
    y 0 = b0 * x 0 + c0 := by
  have := h 0
  simpa using this

theorem SolvesDiffFrom.one {c0 c1 b0 b1 b2 a1 a2 : ℝ} {x y : ℕ → ℝ} (h : SolvesDiffFrom c0 c1 b0 b1 b2 a1 a2 x y) :
    y 1 = b0 * x 1 + b1 * x 0 - a1 * y 0 + c1 := by
  have := h 1
  rw [show (1 : ℕ) = 0 + 1 from rfl] at this
  simp only [lag_two_succ, lag_one_zero, real_zero] at this
  simpa using this

theorem solvesDiffFrom_iff {c0 c1 b0 b1 b2 a1 a2 : ℝ} {x y : ℕ → ℝ} : SolvesDiffFrom c0 c1 b0 b1 b2 a1 a2 x y ↔
    y 0 = b0 * x 0 + c0 ∧ y 1 = b0 * x 1 + b1 * x 0 - a1 * y 0 + c1 ∧
      ∀ n, y (n + 2) = b0 * x (n + 2) + b1 * x (n + 1) + b2 * x n - a1 * y (n + 1) - a2 * y n := by
  refine ⟨fun h => ⟨h.zero, h.one, h.tail⟩, ?_⟩
  rintro ⟨h0, h1, h2⟩ n
  match n with
  | 0 => simp [h0]
  | 1 =>
    rw [show (1 : ℕ) = 0 + 1 from rfl]
    simp only [lag_two_succ, lag_one_zero, real_zero]
    simpa using h1
  | n + 2 => simpa using h2 n

theorem SolvesDiffFrom.unique {c0 c1 b0 b1 b2 a1 a2 : ℝ} {x y z : ℕ → ℝ} (h : SolvesDiffFrom c0 c1 b0 b1 b2 a1 a2 x y)
    (h' : SolvesDiffFrom c0 c1 b0 b1 b2 a1 a2 x z) : y = z := by
  funext n
  induction n using Nat.strong_induction_on with
  | _ n ih =>
    match n with
    | 0 => rw [h.zero, h'.zero]
    | 1 => rw [h.one, h'.one, ih 0 (by omega)]
    | n + 2 => rw [h.tail, h'.tail, ih n (by omega), ih (n + 1) (by omega)]

theorem SolvesDiff.unique {b0 b1 b2 a1 a2 : ℝ} {x y z : ℕ → ℝ} (h : SolvesDiff b0 b1 b2 a1 a2 x y)
    (h' : SolvesDiff b0 b1 b2 a1 a2 x z) : y = z :=
  SolvesDiffFrom.unique (solvesDiffFrom_zero.mpr h) (solvesDiffFrom_zero.mpr h')

/-- The solution of the difference equation. -/
def solveDiff (c0 c1 b0 b1 b2 a1 a2 : ℝ) (x : ℕ → ℝ) : ℕ → ℝ
  | 0 => b0 * x 0 + c0
  | 1 => b0 * x 1 + b1 * x 0 - a1 * (b0 * x 0 + c0) + c1
  | n + 2 => b0 * x (n + 2) + b1 * x (n + 1) + b2 * x n - a1 * solveDiff c0 c1 b0 b1 b2 a1 a2 x (n + 1)
      - a2 * solveDiff c0 c1 b0 b1 b2 a1 a2 x n

theorem solveDiff_solves (c0 c1 b0 b1 b2 a1 a2 : ℝ) (x : ℕ → ℝ) :
    SolvesDiffFrom c0 c1 b0 b1 b2 a1 a2 x (solveDiff c0 c1 b0 b1 b2 a1 a2 x) :=
  solvesDiffFrom_iff.mpr ⟨by simp [solveDiff], by simp [solveDiff], fun n => by simp [solveDiff]⟩

/-- Sums of solutions, with the feed-forward coefficients adding up. -/
theorem SolvesDiff.linear {b0 b1 b2 a1 a2 : ℝ} {x y u v : ℕ → ℝ} (h : SolvesDiff b0 b1 b2 a1 a2 x y)
    (h' : SolvesDiff b0 b1 b2 a1 a2 u v) (p q : ℝ) :
    SolvesDiff b0 b1 b2 a1 a2 (fun n => p * x n + q * u n) (fun n => p * y n + q * v n) := by
  intro n
  show p * y n + q * v n = _
  rw [h n, h' n]
  simp only [lag, real_zero]
  split_ifs <;> ring

theorem SolvesDiff.add_feedforward {b0 b1 b2 b0' b1' b2' a1 a2 : ℝ} {x y v : ℕ → ℝ} (h : SolvesDiff b0 b1 b2 a1 a2 x y)
    (h' : SolvesDiff b0' b1' b2' a1 a2 x v) :
    SolvesDiff (b0 + b0') (b1 + b1') (b2 + b2') a1 a2 x (fun n => y n + v n) := by
  intro n
  show y n + v n = _
  rw [h n, h' n]
  simp only [lag, real_zero]
  split_ifs <;> ring

theorem SolvesDiff.shift {b0 b1 b2 a1 a2 : ℝ} {x y : ℕ → ℝ} (h : SolvesDiff b0 b1 b2 a1 a2 x y) (k : ℕ) :
    SolvesDiff b0 b1 b2 a1 a2 (lag x k) (lag y k) := by
  induction k with
  | zero =>
    have : ∀ z : ℕ → ℝ, lag z 0 = z := fun z => by funext n; simp
    rw [this, this]; exact h
  | succ k ih =>
    have hc : ∀ z : ℕ → ℝ, ∀ n, lag z (k + 1) n = lag (lag z k) 1 n := by
      intro z n
      cases n with
      | zero => simp
      | succ n => simp
    intro n
    cases n with
    | zero => simp
    | succ n =>
      have := ih n
      rw [lag_succ_succ, lag_succ_succ, lag_one_succ, lag_one_succ, lag_two_succ, lag_two_succ, this, hc x, hc y]
      have hc2 : ∀ z : ℕ → ℝ, lag (lag z (k + 1)) 1 n = lag (lag z k) 2 n := by
        intro z
        cases n with
        | zero => simp
        | succ n => simp [hc]
      rw [hc2, hc2]

/-! ## Consequences for processors -/

variable {σ : Type} [Processor σ ℝ]

theorem ImplementsFrom.implements {s : σ} {b0 b1 b2 a1 a2 : ℝ} (h : ImplementsFrom s 0 0 b0 b1 b2 a1 a2) :
    Implements s b0 b1 b2 a1 a2 := fun b x y => (h b x y).trans solvesDiffFrom_zero

theorem Implements.from {s : σ} {b0 b1 b2 a1 a2 : ℝ} (h : Implements s b0 b1 b2 a1 a2) :
    ImplementsFrom s 0 0 b0 b1 b2 a1 a2 := fun b x y => (h b x y).trans solvesDiffFrom_zero.symm

/-- Whatever the input, the equation has a solution. -/
theorem ImplementsFrom.total {s : σ} {c0 c1 b0 b1 b2 a1 a2 : ℝ} (h : ImplementsFrom s c0 c1 b0 b1 b2 a1 a2) :
    Total (T := ℝ) s := fun b x => ⟨_, (h b x _).mpr (solveDiff_solves _ _ _ _ _ _ _ x)⟩

theorem Implements.isLinear {s : σ} {b0 b1 b2 a1 a2 : ℝ} (h : Implements s b0 b1 b2 a1 a2) : IsLinear s := by
  refine ⟨h.from.total, ?_⟩
  intro b x y u v p q h1 h2
  rw [h] at *
  exact h1.linear h2 p q

theorem Implements.isTimeInvariant {s : σ} {b0 b1 b2 a1 a2 : ℝ} (h : Implements s b0 b1 b2 a1 a2) : IsTimeInvariant s := by
  refine ⟨h.from.total, ?_⟩
  intro b x y k h1
  rw [h] at *
  exact h1.shift k

/-- The general bound: start-up leftovers and input bound. -/
theorem SolvesDiffFrom.bound {b0 b1 b2 a1 a2 : ℝ} (hs : StablePair a1 a2) :
    ∃ K, 0 ≤ K ∧ ∀ (c0 c1 : ℝ) (x y : ℕ → ℝ) (B : ℝ), SolvesDiffFrom c0 c1 b0 b1 b2 a1 a2 x y → (∀ n, |x n| ≤ B) →
      ∀ n, |y n| ≤ K * (|c0| + |c1| + B) := by
  obtain ⟨K, hK, hb⟩ := second_order_bound hs
  set S := |b0| + |b1| + |b2| + |a1| + 1 with hS
  have hS1 : 1 ≤ S := by
    have := abs_nonneg b0; have := abs_nonneg b1; have := abs_nonneg b2; have := abs_nonneg a1
    linarith
  refine ⟨K * (4 * S * S), by positivity, ?_⟩
  intro c0 c1 x y B h hx n
  have hB : 0 ≤ B := (abs_nonneg _).trans (hx 0)
  have hterm : ∀ (c : ℝ) n, |c * x n| ≤ |c| * B := by
    intro c n; rw [abs_mul]; exact mul_le_mul_of_nonneg_left (hx n) (abs_nonneg _)
  have q1 := hb y (fun n => b0 * x (n + 2) + b1 * x (n + 1) + b2 * x n) ((|b0| + |b1| + |b2|) * B)
    (fun n => by rw [h.tail]; ring)
    (fun n => by
      have e1 := hterm b0 (n + 2); have e2 := hterm b1 (n + 1); have e3 := hterm b2 n
      have := abs_add_three (b0 * x (n + 2)) (b1 * x (n + 1)) (b2 * x n)
      linarith) n
  refine q1.trans ?_
  rw [mul_assoc]
  apply mul_le_mul_of_nonneg_left _ hK
  have e0 : |y 0| ≤ |b0| * B + |c0| := by
    rw [h.zero]
    exact (abs_add_le _ _).trans (by linarith [hterm b0 0])
  have e1 : |y 1| ≤ |b0| * B + |b1| * B + |a1| * |y 0| + |c1| := by
    rw [h.one]
    have := abs_add_le (b0 * x 1 + b1 * x 0 - a1 * y 0) c1
    have := abs_sub (b0 * x 1 + b1 * x 0) (a1 * y 0)
    have := abs_add_le (b0 * x 1) (b1 * x 0)
    have := hterm b0 1; have := hterm b1 0
    have := abs_mul a1 (y 0)
    linarith
  have p0 := abs_nonneg b0; have p1 := abs_nonneg b1; have p2 := abs_nonneg b2; have p3 := abs_nonneg a1
  have p4 := abs_nonneg c0; have p5 := abs_nonneg c1
  have hy0 : |y 0| ≤ S * (|c0| + |c1| + B) := by
    have : |b0| * B ≤ S * B := mul_le_mul_of_nonneg_right (by linarith) hB
    nlinarith
  have hSS : S ≤ S * S := by nlinarith
  have ht : 0 ≤ |c0| + |c1| + B := by positivity
  have hy0' : |y 0| ≤ S * S * (|c0| + |c1| + B) := hy0.trans (mul_le_mul_of_nonneg_right hSS ht)
  have ha : |a1| * |y 0| ≤ S * S * (|c0| + |c1| + B) := by
    rw [mul_assoc]
    exact mul_le_mul (by linarith) hy0 (abs_nonneg _) (by linarith)
  have hbb : |b0| * B + |b1| * B + |c1| ≤ S * S * (|c0| + |c1| + B) := by
    have : |b0| * B + |b1| * B + |c1| ≤ S * (|c0| + |c1| + B) := by nlinarith
    exact this.trans (mul_le_mul_of_nonneg_right hSS ht)
  have hbbb : (|b0| + |b1| + |b2|) * B ≤ S * S * (|c0| + |c1| + B) := by
    have : (|b0| + |b1| + |b2|) * B ≤ S * (|c0| + |c1| + B) := by nlinarith
    exact this.trans (mul_le_mul_of_nonneg_right hSS ht)
  linarith

theorem Implements.isBoundedGain {s : σ} {b0 b1 b2 a1 a2 : ℝ} (h : Implements s b0 b1 b2 a1 a2)
    (hs : StablePair a1 a2) : IsBoundedGain s := by
  obtain ⟨K, _, hb⟩ := SolvesDiffFrom.bound (b0 := b0) (b1 := b1) (b2 := b2) hs
  refine ⟨h.from.total, K, fun b x y B hr hx n => ?_⟩
  have := hb 0 0 x y B ((h.from b x y).mp hr) hx n
  simpa using this

theorem ImplementsFrom.isBounded {s : σ} {c0 c1 b0 b1 b2 a1 a2 : ℝ} (h : ImplementsFrom s c0 c1 b0 b1 b2 a1 a2)
    (hs : StablePair a1 a2) : IsBounded s := by
  obtain ⟨K, _, hb⟩ := SolvesDiffFrom.bound (b0 := b0) (b1 := b1) (b2 := b2) hs
  refine ⟨h.total, fun B => ?_⟩
  exact ⟨_, fun b x y hr hx n => hb c0 c1 x y B ((h b x y).mp hr) hx n⟩

/-- Convergence to any stream that solves the equation from the third sample on. -/
theorem ImplementsFrom.convergesTo {s : σ} {c0 c1 b0 b1 b2 a1 a2 : ℝ} (h : ImplementsFrom s c0 c1 b0 b1 b2 a1 a2)
    (hs : StablePair a1 a2) {x z : ℕ → ℝ}
    (hz : ∀ n, z (n + 2) = b0 * x (n + 2) + b1 * x (n + 1) + b2 * x n - a1 * z (n + 1) - a2 * z n) : ConvergesTo s x z := by
  refine ⟨h.total, ?_⟩
  intro b y hr
  rw [h] at hr
  exact second_order_tendsto (w := fun _ => 0) hs (v := fun n => y n - z n) (fun n => by rw [hr.tail, hz]; ring)
    tendsto_const_nhds

theorem ImplementsFrom.silenceDecays {s : σ} {c0 c1 b0 b1 b2 a1 a2 : ℝ} (h : ImplementsFrom s c0 c1 b0 b1 b2 a1 a2)
    (hs : StablePair a1 a2) : SilenceDecays s := by
  refine ⟨h.total, ?_⟩
  rintro b x y hr ⟨N, hN⟩
  rw [h] at hr
  refine second_order_tendsto hs (w := fun n => b0 * x (n + 2) + b1 * x (n + 1) + b2 * x n)
    (fun n => by rw [hr.tail]; ring) ?_
  refine tendsto_const_nhds.congr' ?_
  filter_upwards [eventually_ge_atTop N] with n hn
  rw [hN n hn, hN (n + 1) (by omega), hN (n + 2) (by omega)]
  ring

/-! ## The six filter types, from any state -/

section
variable {T : Type} [FloatOps T] {b : Build} {x y : ℕ → T}

theorem before_zero_eq_lag (x : ℕ → T) : before zero x = lag x 1 := by
  funext n
  cases n <;> simp [before]

theorem before_before_eq_lag (x : ℕ → T) : before zero (before zero x) = lag x 2 := by
  funext n
  cases n with
  | zero => simp [before]
  | succ n => rw [lag_two_succ]; exact congrFun (before_zero_eq_lag x) n

theorem OnePole.responds_iff (s : OnePole T) :
    Responds b s x y ↔ ∀ n, y n = s.b0 *. x n -. s.a1 *. before s.y_z1 y n :=
  responds_iff_of_states (fun n => { s with y_z1 := before s.y_z1 y n }) _ rfl
    fun n => ⟨_, rfl, fun h => by simp [before, h]⟩

theorem OneZero.responds_iff (s : OneZero T) :
    Responds b s x y ↔ ∀ n, y n = s.b0 *. x n +. s.b1 *. before s.x_z1 x n :=
  responds_iff_of_states (fun n => { s with x_z1 := before s.x_z1 x n, output := before s.output y n }) _ rfl
    fun n => ⟨_, rfl, fun h => by simp [before, h]⟩

theorem TwoPole.responds_iff (s : TwoPole T) :
    Responds b s x y ↔ ∀ n, y n = s.b0 *. x n -. s.a1 *. before s.y_z1 y n -. s.a2 *. before s.y_z2 (before s.y_z1 y) n :=
  responds_iff_of_states (fun n => { s with y_z1 := before s.y_z1 y n, y_z2 := before s.y_z2 (before s.y_z1 y) n }) _ rfl
    fun n => ⟨_, rfl, fun h => by simp [before, h]⟩

theorem TwoZero.responds_iff (s : TwoZero T) :
    Responds b s x y ↔ ∀ n, y n = s.b0 *. x n +. s.b1 *. before s.x_z1 x n +. s.b2 *. before s.x_z2 (before s.x_z1 x) n :=
  responds_iff_of_states
    (fun n => { s with x_z1 := before s.x_z1 x n, x_z2 := before s.x_z2 (before s.x_z1 x) n, output := before s.output y n })
    _ rfl fun n => ⟨_, rfl, fun h => by simp [before, h]⟩

theorem Biquad1.responds_iff (s : Biquad1 T) :
    Responds b s x y ↔ ∀ n, y n = s.b0 *. x n +. s.b1 *. before s.x_z1 x n +. s.b2 *. before s.x_z2 (before s.x_z1 x) n
      -. s.a1 *. before s.y_z1 y n -. s.a2 *. before s.y_z2 (before s.y_z1 y) n :=
  responds_iff_of_states
    (fun n => { s with x_z1 := before s.x_z1 x n, x_z2 := before s.x_z2 (before s.x_z1 x) n,
                       y_z1 := before s.y_z1 y n, y_z2 := before s.y_z2 (before s.y_z1 y) n })
    _ rfl fun n => ⟨_, rfl, fun h => by simp [before, h]⟩

theorem Biquad2.responds_iff (s : Biquad2 T) :
    Responds b s x y ↔ ∀ n, y n = s.b0 *. x n +.
      before s.z1 (fun m => s.b1 *. x m +. before s.z2 (fun k => s.b2 *. x k -. s.a2 *. y k) m -. s.a1 *. y m) n :=
  responds_iff_of_states
    (fun n => { s with
      z1 := before s.z1 (fun m => s.b1 *. x m +. before s.z2 (fun k => s.b2 *. x k -. s.a2 *. y k) m -. s.a1 *. y m) n,
      z2 := before s.z2 (fun k => s.b2 *. x k -. s.a2 *. y k) n,
      output := before s.output y n })
    _ rfl fun n => ⟨_, rfl, fun h => by simp [before, h]⟩

end

theorem OnePole.implementsFrom (s : OnePole ℝ) : ImplementsFrom s (-(s.a1 * s.y_z1)) 0 s.b0 0 0 s.a1 0 := by
  intro b x y
  rw [OnePole.responds_iff]
  refine forall_congr' fun n => ?_
  match n with
  | 0 => simp [before, sub_eq_add_neg]
  | 1 => simp [before]
  | n + 2 => simp [before]

theorem OneZero.implementsFrom (s : OneZero ℝ) : ImplementsFrom s (s.b1 * s.x_z1) 0 s.b0 s.b1 0 0 0 := by
  intro b x y
  rw [OneZero.responds_iff]
  refine forall_congr' fun n => ?_
  match n with
  | 0 => simp [before]
  | 1 => simp [before]
  | n + 2 => simp [before]

theorem TwoPole.implementsFrom (s : TwoPole ℝ) :
    ImplementsFrom s (-(s.a1 * s.y_z1) - s.a2 * s.y_z2) (-(s.a2 * s.y_z1)) s.b0 0 0 s.a1 s.a2 := by
  intro b x y
  rw [TwoPole.responds_iff]
  refine forall_congr' fun n => ?_
  match n with
  | 0 => simp [before]; constructor <;> intro h <;> rw [h] <;> ring
  | 1 => simp [before, lag]; constructor <;> intro h <;> rw [h] <;> ring
  | n + 2 => simp [before]

theorem TwoZero.implementsFrom (s : TwoZero ℝ) :
    ImplementsFrom s (s.b1 * s.x_z1 + s.b2 * s.x_z2) (s.b2 * s.x_z1) s.b0 s.b1 s.b2 0 0 := by
  intro b x y
  rw [TwoZero.responds_iff]
  refine forall_congr' fun n => ?_
  match n with
  | 0 => simp [before]; constructor <;> intro h <;> rw [h] <;> ring
  | 1 => simp [before, lag]
  | n + 2 => simp [before]

theorem Biquad1.implementsFrom (s : Biquad1 ℝ) :
    ImplementsFrom s (s.b1 * s.x_z1 + s.b2 * s.x_z2 - s.a1 * s.y_z1 - s.a2 * s.y_z2) (s.b2 * s.x_z1 - s.a2 * s.y_z1)
      s.b0 s.b1 s.b2 s.a1 s.a2 := by
  intro b x y
  rw [Biquad1.responds_iff]
  refine forall_congr' fun n => ?_
  match n with
  | 0 => simp [before]; constructor <;> intro h <;> rw [h] <;> ring
  | 1 => simp [before, lag]; constructor <;> intro h <;> rw [h] <;> ring
  | n + 2 => simp [before]

theorem Biquad2.implementsFrom (s : Biquad2 ℝ) : ImplementsFrom s s.z1 s.z2 s.b0 s.b1 s.b2 s.a1 s.a2 := by
  intro b x y
  rw [Biquad2.responds_iff]
  refine forall_congr' fun n => ?_
  match n with
  | 0 => simp [before]
  | 1 => simp [before, lag]; constructor <;> intro h <;> rw [h] <;> ring
  | n + 2 => simp [before]; constructor <;> intro h <;> rw [h] <;> ring

end Rasp
