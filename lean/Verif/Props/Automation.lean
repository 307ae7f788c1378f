import Verif.Spec.Automation
import Verif.Props.Memory
import Verif.Props.Filters

/-!
# C100: changing coefficients while the signal runs
-/

namespace Rasp
open FloatOps

section general
variable {σ T π : Type} [Processor σ T]

theorem Automated.exists (h : NeverPanics σ (T := T)) (b : Build) (set : σ → π → σ) (s : σ) (c : ℕ → π) (x : ℕ → T) :
    ∃ y, Automated b set s c x y := by
  let st : ℕ → σ := fun n => Nat.rec s (fun n s => (h b (set s (c n)) (x n)).choose) n
  refine ⟨fun n => (h b (set (st n) (c n)) (x n)).choose_spec.choose, st, rfl, fun n => ?_⟩
  exact (h b (set (st n) (c n)) (x n)).choose_spec.choose_spec

theorem Automated.unique {b : Build} {set : σ → π → σ} {s : σ} {c : ℕ → π} {x y z : ℕ → T} (hy : Automated b set s c x y)
    (hz : Automated b set s c x z) : y = z := by
  obtain ⟨st, h0, h⟩ := hy
  obtain ⟨st', h0', h'⟩ := hz
  have e : ∀ n, st n = st' n := by
    intro n
    induction n with
    | zero => rw [h0, h0']
    | succ n ih =>
      have := (h n).symm.trans ((congrArg (fun s => Processor.process b (set s (c n)) (x n)) ih).trans (h' n))
      exact (Prod.mk.inj (Except.ok.inj this)).1
  funext n
  have := (h n).symm.trans ((congrArg (fun s => Processor.process b (set s (c n)) (x n)) (e n)).trans (h' n))
  exact (Prod.mk.inj (Except.ok.inj this)).2

/-- If one response is known, an automated stream is that response. -/
theorem Automated.iff_of {b : Build} {set : σ → π → σ} {s : σ} {c : ℕ → π} {x y z : ℕ → T} (hz : Automated b set s c x z) :
    Automated b set s c x y ↔ y = z := ⟨fun h => h.unique hz, fun h => h ▸ hz⟩

end general

/-! ## The difference equations -/

theorem solvesNow_unique {c : ℕ → Coef ℝ} {x y z : ℕ → ℝ} (hy : SolvesNow c x y) (hz : SolvesNow c x z) : y = z := by
  funext n
  induction n using Nat.strong_induction_on with
  | _ n ih =>
    have l : ∀ k, 1 ≤ k → lag y k n = lag z k n := fun k hk => by
      unfold lag; split_ifs with h
      · exact ih _ (by omega)
      · rfl
    rw [hy n, hz n, l 1 le_rfl, l 2 (by norm_num)]

theorem solvesThen_unique {c : ℕ → Coef ℝ} {x y z : ℕ → ℝ} (hy : SolvesThen c x y) (hz : SolvesThen c x z) : y = z := by
  funext n
  induction n using Nat.strong_induction_on with
  | _ n ih =>
    have l : ∀ k (p q : ℕ → ℝ), 1 ≤ k → lag (fun m => p m * x m - q m * y m) k n = lag (fun m => p m * x m - q m * z m) k n := fun k p q hk => by
      unfold lag; split_ifs with h
      · show _ = _
        simp only
        rw [ih _ (by omega)]
      · rfl
    rw [hy n, hz n, l 1 _ _ le_rfl, l 2 _ _ (by norm_num)]

/-- **C100.** With coefficients set before every sample, direct form I applies the current coefficients to the past samples. -/
theorem C100_biquad1 (b : Build) (c : ℕ → Coef ℝ) (x y : ℕ → ℝ) :
    Automated b (fun s p => s.setCoefficients p.b0 p.b1 p.b2 p.a1 p.a2) (Biquad1.new : Biquad1 ℝ) c x y ↔ SolvesNow c x y := by
  obtain ⟨z, hz⟩ := Automated.exists (T := ℝ) (σ := Biquad1 ℝ) (fun _ _ _ => ⟨_, _, rfl⟩) b
    (fun s p => s.setCoefficients p.b0 p.b1 p.b2 p.a1 p.a2) Biquad1.new c x
  have hs : SolvesNow c x z := by
    obtain ⟨st, h0, h⟩ := hz
    have inv : ∀ n, (st n).x_z1 = lag x 1 n ∧ (st n).x_z2 = lag x 2 n ∧ (st n).y_z1 = lag z 1 n ∧ (st n).y_z2 = lag z 2 n := by
      intro n
      induction n with
      | zero => rw [h0]; exact ⟨rfl, rfl, rfl, rfl⟩
      | succ n ih =>
        obtain ⟨e1, e2⟩ := Prod.mk.inj (Except.ok.inj (h n))
        rw [← e1, lag_one_succ, lag_two_succ, lag_one_succ, lag_two_succ, ← e2]
        exact ⟨rfl, ih.1, rfl, ih.2.2.1⟩
    intro n
    obtain ⟨e1, e2⟩ := Prod.mk.inj (Except.ok.inj (h n))
    obtain ⟨i1, i2, i3, i4⟩ := inv n
    rw [← e2, ← i1, ← i2, ← i3, ← i4]
    rfl
  exact hz.iff_of.trans ⟨fun h => h ▸ hs, fun h => solvesNow_unique h hs⟩

/-- **C100.** … transposed direct form II applies to every past sample the coefficients of its own time. -/
theorem C100_biquad2 (b : Build) (c : ℕ → Coef ℝ) (x y : ℕ → ℝ) :
    Automated b (fun s p => s.setCoefficients p.b0 p.b1 p.b2 p.a1 p.a2) (Biquad2.new : Biquad2 ℝ) c x y ↔ SolvesThen c x y := by
  obtain ⟨z, hz⟩ := Automated.exists (T := ℝ) (σ := Biquad2 ℝ) (fun _ _ _ => ⟨_, _, rfl⟩) b
    (fun s p => s.setCoefficients p.b0 p.b1 p.b2 p.a1 p.a2) Biquad2.new c x
  have hs : SolvesThen c x z := by
    obtain ⟨st, h0, h⟩ := hz
    have inv : ∀ n, (st n).z2 = lag (fun m => (c m).b2 * x m - (c m).a2 * z m) 1 n ∧
        (st n).z1 = lag (fun m => (c m).b1 * x m - (c m).a1 * z m) 1 n + lag (fun m => (c m).b2 * x m - (c m).a2 * z m) 2 n := by
      intro n
      induction n with
      | zero => rw [h0]; exact ⟨rfl, (add_zero (0 : ℝ)).symm⟩
      | succ n ih =>
        obtain ⟨e1, e2⟩ := Prod.mk.inj (Except.ok.inj (h n))
        rw [← e1, lag_one_succ, lag_two_succ, lag_one_succ, ← e2]
        refine ⟨rfl, ?_⟩
        rw [← ih.1, show ∀ p q r : ℝ, p - q + r = p + r - q from fun _ _ _ => by ring]
        rfl
    intro n
    obtain ⟨e1, e2⟩ := Prod.mk.inj (Except.ok.inj (h n))
    rw [add_assoc, ← (inv n).2, ← e2]
    rfl
  exact hz.iff_of.trans ⟨fun h => h ▸ hs, fun h => solvesThen_unique h hs⟩

/-- **C100.** The small filters are direct form I with the missing coefficients zero, also while the others change. -/
theorem C100_small (b : Build) (p q r : ℕ → ℝ) (x y : ℕ → ℝ) :
    (Automated b (fun s (c : ℝ × ℝ) => s.setCoefficients c.1 c.2) (OnePole.new : OnePole ℝ) (fun n => (p n, q n)) x y ↔
      SolvesNow (fun n => ⟨p n, 0, 0, q n, 0⟩) x y) ∧
    (Automated b (fun s (c : ℝ × ℝ) => s.setCoefficients c.1 c.2) (OneZero.new : OneZero ℝ) (fun n => (p n, q n)) x y ↔
      SolvesNow (fun n => ⟨p n, q n, 0, 0, 0⟩) x y) ∧
    (Automated b (fun s (c : ℝ × ℝ × ℝ) => s.setCoefficients c.1 c.2.1 c.2.2) (TwoPole.new : TwoPole ℝ) (fun n => (p n, q n, r n)) x y ↔
      SolvesNow (fun n => ⟨p n, 0, 0, q n, r n⟩) x y) ∧
    (Automated b (fun s (c : ℝ × ℝ × ℝ) => s.setCoefficients c.1 c.2.1 c.2.2) (TwoZero.new : TwoZero ℝ) (fun n => (p n, q n, r n)) x y ↔
      SolvesNow (fun n => ⟨p n, q n, r n, 0, 0⟩) x y) := by
  refine ⟨?_, ?_, ?_, ?_⟩
  · obtain ⟨z, hz⟩ := Automated.exists (T := ℝ) (σ := OnePole ℝ) (fun _ _ _ => ⟨_, _, rfl⟩) b
      (fun s (c : ℝ × ℝ) => s.setCoefficients c.1 c.2) OnePole.new (fun n => (p n, q n)) x
    have hs : SolvesNow (fun n => ⟨p n, 0, 0, q n, 0⟩) x z := by
      obtain ⟨st, h0, h⟩ := hz
      have inv : ∀ n, (st n).y_z1 = lag z 1 n := by
        intro n
        induction n with
        | zero => rw [h0]; rfl
        | succ n ih =>
          obtain ⟨e1, e2⟩ := Prod.mk.inj (Except.ok.inj (h n))
          rw [← e1, lag_one_succ, ← e2]
      intro n
      obtain ⟨e1, e2⟩ := Prod.mk.inj (Except.ok.inj (h n))
      simp only [zero_mul, add_zero, sub_zero]
      rw [← e2, ← inv n]
      rfl
    exact hz.iff_of.trans ⟨fun h => h ▸ hs, fun h => solvesNow_unique h hs⟩
  · obtain ⟨z, hz⟩ := Automated.exists (T := ℝ) (σ := OneZero ℝ) (fun _ _ _ => ⟨_, _, rfl⟩) b
      (fun s (c : ℝ × ℝ) => s.setCoefficients c.1 c.2) OneZero.new (fun n => (p n, q n)) x
    have hs : SolvesNow (fun n => ⟨p n, q n, 0, 0, 0⟩) x z := by
      obtain ⟨st, h0, h⟩ := hz
      have inv : ∀ n, (st n).x_z1 = lag x 1 n := by
        intro n
        induction n with
        | zero => rw [h0]; rfl
        | succ n ih =>
          obtain ⟨e1, e2⟩ := Prod.mk.inj (Except.ok.inj (h n))
          rw [← e1, lag_one_succ]
      intro n
      obtain ⟨e1, e2⟩ := Prod.mk.inj (Except.ok.inj (h n))
      simp only [zero_mul, add_zero, sub_zero]
      rw [← e2, ← inv n]
      rfl
    exact hz.iff_of.trans ⟨fun h => h ▸ hs, fun h => solvesNow_unique h hs⟩
  · obtain ⟨z, hz⟩ := Automated.exists (T := ℝ) (σ := TwoPole ℝ) (fun _ _ _ => ⟨_, _, rfl⟩) b
      (fun s (c : ℝ × ℝ × ℝ) => s.setCoefficients c.1 c.2.1 c.2.2) TwoPole.new (fun n => (p n, q n, r n)) x
    have hs : SolvesNow (fun n => ⟨p n, 0, 0, q n, r n⟩) x z := by
      obtain ⟨st, h0, h⟩ := hz
      have inv : ∀ n, (st n).y_z1 = lag z 1 n ∧ (st n).y_z2 = lag z 2 n := by
        intro n
        induction n with
        | zero => rw [h0]; exact ⟨rfl, rfl⟩
        | succ n ih =>
          obtain ⟨e1, e2⟩ := Prod.mk.inj (Except.ok.inj (h n))
          rw [← e1, lag_one_succ, lag_two_succ, ← e2]; exact ⟨rfl, ih.1⟩
      intro n
      obtain ⟨e1, e2⟩ := Prod.mk.inj (Except.ok.inj (h n))
      simp only [zero_mul, add_zero]
      rw [← e2, ← (inv n).1, ← (inv n).2]
      rfl
    exact hz.iff_of.trans ⟨fun h => h ▸ hs, fun h => solvesNow_unique h hs⟩
  · obtain ⟨z, hz⟩ := Automated.exists (T := ℝ) (σ := TwoZero ℝ) (fun _ _ _ => ⟨_, _, rfl⟩) b
      (fun s (c : ℝ × ℝ × ℝ) => s.setCoefficients c.1 c.2.1 c.2.2) TwoZero.new (fun n => (p n, q n, r n)) x
    have hs : SolvesNow (fun n => ⟨p n, q n, r n, 0, 0⟩) x z := by
      obtain ⟨st, h0, h⟩ := hz
      have inv : ∀ n, (st n).x_z1 = lag x 1 n ∧ (st n).x_z2 = lag x 2 n := by
        intro n
        induction n with
        | zero => rw [h0]; exact ⟨rfl, rfl⟩
        | succ n ih =>
          obtain ⟨e1, e2⟩ := Prod.mk.inj (Except.ok.inj (h n))
          rw [← e1, lag_one_succ, lag_two_succ]; exact ⟨rfl, ih.1⟩
      intro n
      obtain ⟨e1, e2⟩ := Prod.mk.inj (Except.ok.inj (h n))
      simp only [zero_mul, sub_zero]
      rw [← e2, ← (inv n).1, ← (inv n).2]
      rfl
    exact hz.iff_of.trans ⟨fun h => h ▸ hs, fun h => solvesNow_unique h hs⟩

/-! ## When changing coefficients is safe -/

theorem abs_lag_le_of {x : ℕ → ℝ} {X : ℝ} (hX : 0 ≤ X) {n : ℕ} (k : ℕ) (h : ∀ m, m + k ≤ n → |x m| ≤ X) : |lag x k n| ≤ X := by
  unfold lag
  split_ifs with hk
  · exact h _ (by omega)
  · show |(0 : ℝ)| ≤ X
    simpa using hX

/-- **C100.** If `|a1| ≤ A1` and `|a2| ≤ A2` always, with `A1 + A2 < 1`, the output stays bounded however the coefficients move, in both
forms (and in OnePole and TwoPole, which are direct form I). -/
theorem C100_bounded (c : ℕ → Coef ℝ) (x y : ℕ → ℝ) (h : SolvesNow c x y ∨ SolvesThen c x y) {A1 A2 B0 B1 B2 X : ℝ} (hA : A1 + A2 < 1)
    (hc : ∀ n, |(c n).b0| ≤ B0 ∧ |(c n).b1| ≤ B1 ∧ |(c n).b2| ≤ B2 ∧ |(c n).a1| ≤ A1 ∧ |(c n).a2| ≤ A2) (hx : ∀ n, |x n| ≤ X) (n : ℕ) :
    |y n| ≤ (B0 + B1 + B2) * X / (1 - A1 - A2) := by
  have hX : 0 ≤ X := (abs_nonneg _).trans (hx 0)
  obtain ⟨b0, b1, b2, a1, a2⟩ := hc 0
  have hB0 := (abs_nonneg _).trans b0
  have hB1 := (abs_nonneg _).trans b1
  have hB2 := (abs_nonneg _).trans b2
  have hA1 := (abs_nonneg _).trans a1
  have hA2 := (abs_nonneg _).trans a2
  have h1 : 0 < 1 - A1 - A2 := by linarith
  have hM : 0 ≤ (B0 + B1 + B2) * X / (1 - A1 - A2) := by positivity
  have eM : (B0 + B1 + B2) * X + (A1 + A2) * ((B0 + B1 + B2) * X / (1 - A1 - A2)) = (B0 + B1 + B2) * X / (1 - A1 - A2) := by
    field_simp; ring
  generalize (B0 + B1 + B2) * X / (1 - A1 - A2) = M at *
  induction n using Nat.strong_induction_on with
  | _ n ih =>
    have mx : ∀ {p P q Q : ℝ}, |p| ≤ P → |q| ≤ Q → |p * q| ≤ P * Q := fun hp hq => by
      rw [abs_mul]; exact mul_le_mul hp hq (abs_nonneg _) ((abs_nonneg _).trans hp)
    have m0 := mx (hc n).1 (hx n)
    rcases h with h | h
    · rw [h n]
      obtain ⟨-, c1, c2, c3, c4⟩ := hc n
      have m1 := mx c1 (abs_lag_le_of hX 1 (n := n) fun m _ => hx m)
      have m2 := mx c2 (abs_lag_le_of hX 2 (n := n) fun m _ => hx m)
      have m3 := mx c3 (abs_lag_le_of hM 1 (n := n) fun m hm => ih m (by omega))
      have m4 := mx c4 (abs_lag_le_of hM 2 (n := n) fun m hm => ih m (by omega))
      have q1 := abs_sub ((c n).b0 * x n + (c n).b1 * lag x 1 n + (c n).b2 * lag x 2 n - (c n).a1 * lag y 1 n) ((c n).a2 * lag y 2 n)
      have q2 := abs_sub ((c n).b0 * x n + (c n).b1 * lag x 1 n + (c n).b2 * lag x 2 n) ((c n).a1 * lag y 1 n)
      have q3 := abs_add_three ((c n).b0 * x n) ((c n).b1 * lag x 1 n) ((c n).b2 * lag x 2 n)
      linarith
    · rw [h n]
      have q := abs_add_three ((c n).b0 * x n) (lag (fun m => (c m).b1 * x m - (c m).a1 * y m) 1 n)
        (lag (fun m => (c m).b2 * x m - (c m).a2 * y m) 2 n)
      have q1 : |lag (fun m => (c m).b1 * x m - (c m).a1 * y m) 1 n| ≤ B1 * X + A1 * M :=
        abs_lag_le_of (by positivity) 1 fun m hm => (abs_sub _ _).trans (add_le_add (mx (hc m).2.1 (hx m)) (mx (hc m).2.2.2.1 (ih m (by omega))))
      have q2 : |lag (fun m => (c m).b2 * x m - (c m).a2 * y m) 2 n| ≤ B2 * X + A2 * M :=
        abs_lag_le_of (by positivity) 2 fun m hm => (abs_sub _ _).trans (add_le_add (mx (hc m).2.2.1 (hx m)) (mx (hc m).2.2.2.2 (ih m (by omega))))
      linarith

/-- **C100.** In particular a one-pole filter whose pole moves anywhere within `|a1| ≤ A < 1`. -/
theorem C100_one_pole (b : Build) (p q : ℕ → ℝ) (x y : ℕ → ℝ) {A B X : ℝ} (hA : A < 1) (hq : ∀ n, |q n| ≤ A) (hp : ∀ n, |p n| ≤ B)
    (hx : ∀ n, |x n| ≤ X)
    (h : Automated b (fun s (c : ℝ × ℝ) => s.setCoefficients c.1 c.2) (OnePole.new : OnePole ℝ) (fun n => (p n, q n)) x y) (n : ℕ) :
    |y n| ≤ B * X / (1 - A) := by
  have := C100_bounded _ x y (.inl ((C100_small b p q q x y).1.mp h)) (A1 := A) (A2 := 0) (B0 := B) (B1 := 0) (B2 := 0) (by linarith)
    (fun n => ⟨hp n, by simp, by simp, hq n, by simp⟩) hx n
  simpa using this

/-- The hypotheses of C100_bounded are met by coefficients that keep moving, and a response exists. -/
example (b : Build) : ∃ y : ℕ → ℝ, ∀ n, |y n| ≤ 4 := by
  obtain ⟨y, hy⟩ := Automated.exists (T := ℝ) (σ := Biquad2 ℝ) (fun _ _ _ => ⟨_, _, rfl⟩) b
    (fun s p => s.setCoefficients p.b0 p.b1 p.b2 p.a1 p.a2) Biquad2.new (fun n => (⟨1, 1, 0, (-1) ^ n / 4, -1 / 4⟩ : Coef ℝ)) (fun n => (-1) ^ n)
  refine ⟨y, fun n => (C100_bounded _ _ y (.inr ((C100_biquad2 b _ _ y).mp hy)) (A1 := 1 / 4) (A2 := 1 / 4) (B0 := 1) (B1 := 1) (B2 := 0)
    (X := 1) (by norm_num) (fun n => ?_) (fun n => ?_) n).trans (by norm_num)⟩
  · simp [abs_div]
  · simp

/-! ## When it is not -/

/-- Two stable sets of coefficients in turn. -/
noncomputable def switching (n : ℕ) : Coef ℝ := ⟨1, 0, 0, (-1) ^ n, 1 / 2⟩

theorem switching_grows {y σ : ℕ → ℝ} (hσ : ∀ n, σ (n + 1) = -σ n) (hσ1 : ∀ n, |σ n| = 1) (h0 : y 0 = 1) (h1 : y 1 = -σ 1)
    (h : ∀ n, y (n + 2) = -σ (n + 2) * y (n + 1) - 1 / 2 * y n) (n : ℕ) : (3 / 2) ^ (n / 2) ≤ |y n| := by
  -- the two terms of the recursion never have opposite signs
  have sq : ∀ n, σ n * σ n = 1 := fun n => by rw [← abs_mul_abs_self, hσ1]; norm_num
  have step : ∀ n, σ (n + 1) * y (n + 1) * y n ≤ 0 → |y (n + 2)| = |y (n + 1)| + |y n| / 2 := by
    intro n hs
    have e : y (n + 2) = σ (n + 1) * y (n + 1) + -(1 / 2 * y n) := by rw [h, hσ (n + 1)]; ring
    rw [e, abs_add_eq_add_abs_iff _ _ |>.mpr, abs_mul, hσ1, one_mul, abs_neg, abs_mul]
    · norm_num; ring
    · rcases le_total 0 (y n) with hy | hy
      · rcases hy.lt_or_eq with hy | hy
        · right; constructor <;> nlinarith
        · rw [← hy]; simp [le_total]
      · rcases hy.lt_or_eq with hy | hy
        · left; constructor <;> nlinarith
        · rw [hy]; simp [le_total]
  have key : ∀ n, σ (n + 1) * y (n + 1) * y n ≤ 0 ∧ |y n| ≤ |y (n + 1)| := by
    intro n
    induction n with
    | zero =>
      rw [zero_add, h0, h1, abs_neg, hσ1, abs_one]
      exact ⟨by linarith [sq 1], le_rfl⟩
    | succ n ih =>
      constructor
      · rw [h n, hσ (n + 1)]
        have := sq (n + 1)
        nlinarith [mul_self_nonneg (y (n + 1)), ih.1]
      · rw [step n ih.1]; linarith [abs_nonneg (y n)]
  induction n using Nat.strong_induction_on with
  | _ n ih =>
    match n with
    | 0 => rw [h0]; norm_num
    | 1 => have := (key 0).2; rw [h0] at this; norm_num at this ⊢; exact this
    | n + 2 =>
      rw [step n (key n).1, show (n + 2) / 2 = n / 2 + 1 by omega, pow_succ]
      linarith [ih n (by omega), (key n).2]

/-- **C100.** Alternating between two sets of coefficients, each of which is stable, makes the response to a single impulse grow without
bound, in TwoPole and in both biquads. -/
theorem C100_unstable_switching (b : Build) :
    (∀ n, StablePair (switching n).a1 (switching n).a2) ∧ (∀ n, switching (n + 2) = switching n) ∧
    ∀ (x y : ℕ → ℝ), (∀ n, x n = if n = 0 then 1 else 0) →
      (Automated b (fun s (c : ℝ × ℝ × ℝ) => s.setCoefficients c.1 c.2.1 c.2.2) (TwoPole.new : TwoPole ℝ)
          (fun n => (1, (switching n).a1, (switching n).a2)) x y ∨
        Automated b (fun s p => s.setCoefficients p.b0 p.b1 p.b2 p.a1 p.a2) (Biquad1.new : Biquad1 ℝ) switching x y ∨
        Automated b (fun s p => s.setCoefficients p.b0 p.b1 p.b2 p.a1 p.a2) (Biquad2.new : Biquad2 ℝ) switching x y) →
      ∀ n, (3 / 2) ^ (n / 2) ≤ |y n| := by
  have a1 : ∀ n : ℕ, |(-1 : ℝ) ^ n| = 1 := fun n => by rw [abs_pow]; norm_num
  refine ⟨fun n => ⟨?_, ?_⟩, fun n => ?_, fun x y hx h n => ?_⟩
  · show |(1 / 2 : ℝ)| < 1
    norm_num [abs_lt]
  · show |(-1 : ℝ) ^ n| < 1 + 1 / 2
    rw [a1]; norm_num
  · unfold switching; rw [pow_add]; norm_num
  have now : SolvesNow switching x y → (3 / 2) ^ (n / 2) ≤ |y n| := by
    intro hs
    have e : ∀ n, y n = x n - (-1) ^ n * lag y 1 n - 1 / 2 * lag y 2 n := fun n => by
      rw [hs n]; simp [switching]
    refine switching_grows (σ := fun n => (-1) ^ n) (fun n => by ring) a1 ?_ ?_ (fun n => ?_) n
    · rw [e, hx]; simp [lag]
    · rw [e, hx]
      have : y 0 = 1 := by rw [e, hx]; simp [lag]
      simp [lag, this]
    · rw [e, hx, lag_one_succ, lag_two_succ, lag_one_succ]; simp
  rcases h with h | h | h
  · exact now ((C100_small b _ _ _ x y).2.2.1.mp h)
  · exact now ((C100_biquad1 b _ x y).mp h)
  · have hs := (C100_biquad2 b _ x y).mp h
    have e : ∀ n, y n = x n + lag (fun m => -(-1) ^ m * y m) 1 n + lag (fun m => -(1 / 2) * y m) 2 n := fun n => by
      rw [hs n]; simp [switching]
    have y0 : y 0 = 1 := by rw [e, hx]; simp [lag]
    refine switching_grows (σ := fun n => -(-1) ^ n) (fun n => by ring) (fun n => by rw [abs_neg, a1]) y0 ?_ (fun n => ?_) n
    · rw [e, hx]; simp [lag, y0]
    · rw [e, hx, lag_one_succ, lag_two_succ, lag_one_succ]; simp; ring

/-- **C100.** The two biquads, equal while the coefficients stay (C31), differ once they change: one change of `a1` before the second
sample. -/
theorem C100_forms_differ (b : Build) : ∃ (c : ℕ → Coef ℝ) (x y z : ℕ → ℝ),
    Automated b (fun s p => s.setCoefficients p.b0 p.b1 p.b2 p.a1 p.a2) (Biquad1.new : Biquad1 ℝ) c x y ∧
    Automated b (fun s p => s.setCoefficients p.b0 p.b1 p.b2 p.a1 p.a2) (Biquad2.new : Biquad2 ℝ) c x z ∧
    (∀ n, 1 ≤ n → c n = c 1) ∧ (∀ n, StablePair (c n).a1 (c n).a2) ∧ y 1 ≠ z 1 := by
  obtain ⟨y, hy⟩ := Automated.exists (T := ℝ) (σ := Biquad1 ℝ) (fun _ _ _ => ⟨_, _, rfl⟩) b
    (fun s p => s.setCoefficients p.b0 p.b1 p.b2 p.a1 p.a2) Biquad1.new
    (fun n => if n = 0 then ⟨1, 0, 0, 0, 0⟩ else (⟨1, 0, 0, 1 / 2, 0⟩ : Coef ℝ)) (fun _ => 1)
  obtain ⟨z, hz⟩ := Automated.exists (T := ℝ) (σ := Biquad2 ℝ) (fun _ _ _ => ⟨_, _, rfl⟩) b
    (fun s p => s.setCoefficients p.b0 p.b1 p.b2 p.a1 p.a2) Biquad2.new
    (fun n => if n = 0 then ⟨1, 0, 0, 0, 0⟩ else (⟨1, 0, 0, 1 / 2, 0⟩ : Coef ℝ)) (fun _ => 1)
  refine ⟨_, _, y, z, hy, hz, fun n hn => ?_, fun n => ?_, ?_⟩
  · simp only [if_neg (show n ≠ 0 by omega)]; rfl
  · split_ifs <;> constructor <;> norm_num [abs_lt]
  · have ey := (C100_biquad1 b _ _ y).mp hy
    have ez := (C100_biquad2 b _ _ z).mp hz
    have y0 : y 0 = 1 := by rw [ey]; simp [lag]
    rw [ey 1, ez 1]
    simp [lag, y0]

/-! ## Setting what is already set -/

theorem settingIsFree_of {σ T π : Type} [Processor σ T] {set : σ → π → σ}
    (h : ∀ b s p (x : T) s' y, Processor.process b (set s p) x = .ok (s', y) → set s' p = s') : SettingIsFree (T := T) set := by
  intro b s p x y
  constructor
  · rintro ⟨st, h0, hs⟩
    refine ⟨fun n => set (st n) p, congrArg (set · p) h0, fun n => ?_⟩
    show _ = Except.ok (set (st (n + 1)) p, y n)
    exact (hs n).trans (by rw [h b (st n) p (x n) _ (y n) (hs n)])
  · rintro ⟨st, h0, hs⟩
    have e : ∀ n, set (if n = 0 then s else st n) p = st n := by
      intro n
      induction n with
      | zero => rw [if_pos rfl, h0]
      | succ n ih =>
        rw [if_neg (Nat.succ_ne_zero n)]
        exact h b _ p (x n) _ (y n) (by rw [ih]; exact hs n)
    exact ⟨fun n => if n = 0 then s else st n, rfl, fun n => by rw [e, hs]; rfl⟩

/-- **C100.** Setting the coefficients a basic filter, integrator or detector already has is not heard, in any arithmetic. -/
theorem C100_setting_is_free (T : Type) [FloatOps T] :
    SettingIsFree (T := T) (fun (s : OnePole T) (p : T × T) => s.setCoefficients p.1 p.2) ∧
    SettingIsFree (T := T) (fun (s : OneZero T) (p : T × T) => s.setCoefficients p.1 p.2) ∧
    SettingIsFree (T := T) (fun (s : TwoPole T) (p : T × T × T) => s.setCoefficients p.1 p.2.1 p.2.2) ∧
    SettingIsFree (T := T) (fun (s : TwoZero T) (p : T × T × T) => s.setCoefficients p.1 p.2.1 p.2.2) ∧
    SettingIsFree (T := T) (fun (s : Biquad1 T) (p : Coef T) => s.setCoefficients p.b0 p.b1 p.b2 p.a1 p.a2) ∧
    SettingIsFree (T := T) (fun (s : Biquad2 T) (p : Coef T) => s.setCoefficients p.b0 p.b1 p.b2 p.a1 p.a2) ∧
    SettingIsFree (T := T) (LeakyIntegrator.setAlpha : LeakyIntegrator T → T → LeakyIntegrator T) ∧
    SettingIsFree (T := T) (fun (s : PeakEnvDetector T) (p : T × T) => (s.setAttack p.1).setRelease p.2) ∧
    SettingIsFree (T := T) (fun (s : RmsEnvDetector T) (p : T × T) => (s.setAttack p.1).setRelease p.2) := by
  refine ⟨?_, ?_, ?_, ?_, ?_, ?_, ?_, ?_, ?_⟩ <;> refine settingIsFree_of fun b s p x s' y h => ?_ <;>
    obtain ⟨rfl, -⟩ := Prod.mk.inj (Except.ok.inj h)
  iterate 6 rfl
  · simp only [LeakyIntegrator.setAlpha]; split_ifs <;> rfl
  · simp only [PeakEnvDetector.setAttack, PeakEnvDetector.setRelease]; split_ifs <;> rfl
  · simp only [RmsEnvDetector.setAttack, RmsEnvDetector.setRelease]; split_ifs <;> rfl

/-! ## The rbj filters -/

/-- **C100.** An rbj filter whose parameters are set before every sample (even to the same values) has no memory. -/
theorem C100_rbj_memoryless (T : Type) [FloatOps T] :
    Memoryless (π := T × T × T) (T := T) (LowPass.new : LowPass T) (fun s p => s.setCoefficients p.1 p.2.1 p.2.2) ∧
    Memoryless (π := T × T × T) (T := T) (HighPass.new : HighPass T) (fun s p => s.setCoefficients p.1 p.2.1 p.2.2) ∧
    Memoryless (π := T × T × T) (T := T) (BandPass1.new : BandPass1 T) (fun s p => s.setCoefficients p.1 p.2.1 p.2.2) ∧
    Memoryless (π := T × T × T) (T := T) (BandPass2.new : BandPass2 T) (fun s p => s.setCoefficients p.1 p.2.1 p.2.2) ∧
    Memoryless (π := T × T × T) (T := T) (BandStop.new : BandStop T) (fun s p => s.setCoefficients p.1 p.2.1 p.2.2) ∧
    Memoryless (π := T × T × T) (T := T) (AllPass.new : AllPass T) (fun s p => s.setCoefficients p.1 p.2.1 p.2.2) ∧
    Memoryless (π := T × T × T × T) (T := T) (Peak.new : Peak T) (fun s p => s.setCoefficients p.1 p.2.1 p.2.2.1 p.2.2.2) ∧
    Memoryless (π := T × T × T × T) (T := T) (LowShelf.new : LowShelf T) (fun s p => s.setCoefficients p.1 p.2.1 p.2.2.1 p.2.2.2) ∧
    Memoryless (π := T × T × T × T) (T := T) (HighShelf.new : HighShelf T) (fun s p => s.setCoefficients p.1 p.2.1 p.2.2.1 p.2.2.2) := by
  refine ⟨?_, ?_, ?_, ?_, ?_, ?_, ?_, ?_, ?_⟩ <;>
    exact fun b s c x y ⟨st, _, h⟩ n => ⟨st (n + 1), h n⟩

/-- **C100.** So a low-pass filter that is retuned before every sample only scales its input, by at most one half at any cutoff up to a
quarter of the sample rate: it does not filter. (At a fixed setting, set once, its gain at DC is 1, C39.) -/
theorem C100_lowpass_swept (b : Build) (s : LowPass ℝ) (sr fc q : ℕ → ℝ) (x y : ℕ → ℝ)
    (h : Automated b (fun s (p : ℝ × ℝ × ℝ) => s.setCoefficients p.1 p.2.1 p.2.2) s (fun n => (sr n, fc n, q n)) x y) (n : ℕ) :
    y n = (1 - Real.cos (2 * Real.pi * fc n / sr n)) / 2 / (1 + Real.sin (2 * Real.pi * fc n / sr n) / (2 * q n)) * x n ∧
    (0 < sr n → 0 < fc n → fc n ≤ sr n / 4 → 0 < q n → |y n| ≤ |x n| / 2) := by
  obtain ⟨st, -, h⟩ := h
  obtain ⟨-, e⟩ := Prod.mk.inj (Except.ok.inj (h n))
  have e' : y n = (1 - Real.cos (2 * Real.pi * fc n / sr n)) / 2 / (1 + Real.sin (2 * Real.pi * fc n / sr n) / (2 * q n)) * x n := by
    rw [← e]
    exact add_zero _
  refine ⟨e', fun h1 h2 h3 h4 => ?_⟩
  obtain ⟨w, hw⟩ : ∃ w, w = 2 * Real.pi * fc n / sr n := ⟨_, rfl⟩
  have hπ := Real.pi_pos
  have w0 : 0 ≤ w := by rw [hw]; positivity
  have w1 : w ≤ Real.pi / 2 := by
    rw [hw, div_le_iff₀ h1]; nlinarith
  rw [e', ← hw, abs_mul]
  have c0 : 0 ≤ Real.cos w := Real.cos_nonneg_of_mem_Icc ⟨by linarith, w1⟩
  have c1 := Real.cos_le_one w
  have s0 : 0 ≤ Real.sin w := Real.sin_nonneg_of_nonneg_of_le_pi w0 (by linarith)
  have d0 : 0 ≤ Real.sin w / (2 * q n) := by positivity
  have d : 1 ≤ 1 + Real.sin w / (2 * q n) := by linarith
  have : |(1 - Real.cos w) / 2 / (1 + Real.sin w / (2 * q n))| ≤ 1 / 2 := by
    rw [abs_of_nonneg (div_nonneg (by linarith) (by linarith)), div_le_iff₀ (by linarith)]
    linarith
  calc _ ≤ 1 / 2 * |x n| := mul_le_mul_of_nonneg_right this (abs_nonneg _)
    _ = |x n| / 2 := by ring

/-- **C100.** And so for the rbj filters setting the parameters to the values they have is heard: it is not free. -/
theorem C100_rbj_setting_not_free :
    ¬ SettingIsFree (T := ℝ) (fun (s : LowPass ℝ) (p : ℝ × ℝ × ℝ) => s.setCoefficients p.1 p.2.1 p.2.2) := by
  intro h
  obtain ⟨y, hy⟩ := Automated.exists (T := ℝ) (σ := LowPass ℝ) (fun _ _ _ => ⟨_, _, rfl⟩) ⟨true⟩
    (fun s (p : ℝ × ℝ × ℝ) => s.setCoefficients p.1 p.2.1 p.2.2) LowPass.new (fun _ => (4, 1, 1)) (fun n => if n = 0 then 1 else 0)
  have y1 : y 1 = 0 := by rw [(C100_lowpass_swept ⟨true⟩ _ (fun _ => 4) (fun _ => 1) (fun _ => 1) _ y hy 1).1]; simp
  obtain ⟨st, h0, hs⟩ := (h _ _ _ _ _).mp hy
  obtain ⟨e1, -⟩ := Prod.mk.inj (Except.ok.inj (hs 0))
  obtain ⟨-, e2⟩ := Prod.mk.inj (Except.ok.inj (hs 1))
  rw [h0] at e1
  rw [← e1] at e2
  have c0 : FloatOps.cos (two *. pi *. (1 : ℝ) /. 4) = 0 := by
    show Real.cos (2 * Real.pi * 1 / 4) = 0
    rw [show 2 * Real.pi * 1 / 4 = Real.pi / 2 by ring, Real.cos_pi_div_two]
  have s0 : FloatOps.sin (two *. pi *. (1 : ℝ) /. 4) = 1 := by
    show Real.sin (2 * Real.pi * 1 / 4) = 1
    rw [show 2 * Real.pi * 1 / 4 = Real.pi / 2 by ring, Real.sin_pi_div_two]
  simp only [LowPass.setCoefficients, c0, s0] at e2
  have e3 : (1 - 0) / 2 / (1 + 1 / (2 * 1)) * 0 + ((1 - 0) / (1 + 1 / (2 * 1)) * 1 + 0 -
      (-2) * 0 / (1 + 1 / (2 * 1)) * ((1 - 0) / 2 / (1 + 1 / (2 * 1)) * 1 + 0)) = y 1 := e2
  rw [y1] at e3
  norm_num at e3

end Rasp
